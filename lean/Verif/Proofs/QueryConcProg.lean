import Verif.Spec.QueryConc
import Verif.Proofs.AssocRun
/-! What the set operations of a query make of one id: C95. -/
namespace Willow.QueryConc
open Willow.Assoc (Query Selection ValueQuery GSet FindState KVs treeHolds selTree inBounds)
open Willow.Spec (everywhere everywhereL queryHolds allHold anyHolds selHolds Asks)

open Willow.BTree (LawfulKey)

variable {K : Type} [LawfulKey K]

/-- `Q` holds of the result if the answers to the searches satisfy `S` and those to the lookups `L`. -/
def Prog.All (S : Search K → List Nat → Prop) (L : Nat → Option (KVs K) → Prop) (Q : Option GSet → Prop) : Prog K → Prop
  | .ret r => Q r
  | .search q k => ∀ ids, S q ids → Prog.All S L Q (k ids)
  | .lookup id k => ∀ o, L id o → Prog.All S L Q (k o)

/-- The search finds items with these key-values. -/
def Search.hits (q : Search K) (kvs : KVs K) : Bool :=
  inBounds q.min q.max kvs.length && (match q.key with | none => true | some kq => treeHolds kvs kq)

/-- A set as far as one id is concerned: it has it only if `b`, and surely if `b` and `full`. -/
def About (full : Prop) (id : Nat) (g : List Nat) (b : Bool) : Prop := (id ∈ g → b = true) ∧ (full → b = true → id ∈ g)

/-- What a search can answer about an id with these key-values. -/
def SOk (full : Prop) (id : Nat) (kvs : KVs K) (q : Search K) (ids : List Nat) : Prop := About full id ids (q.hits kvs)

/-- What a lookup can answer about an id with these key-values. -/
def LOk (full : Prop) (id : Nat) (kvs : KVs K) (id' : Nat) (o : Option (KVs K)) : Prop := id' = id → (∀ kvs', o = some kvs' → kvs' = kvs) ∧ (full → o = some kvs)

/-- What is known about a selection. -/
def SelFine (full : Prop) (sel : Selection K) : Prop := Exact sel ∧ (full ∨ NoNotEquals sel)

/-- A set of ids, without repetition. -/
def Set' (full : Prop) (id : Nat) (g : GSet) (b : Bool) : Prop := g.Nodup ∧ About full id g b

section
variable {full : Prop} {id : Nat} {kvs : KVs K} {Q : Option GSet → Prop}

theorem lookups_all {sel : Selection K} (hv : Spec.ValidSel sel) {k : GSet → Prog K} (hk : ∀ g, Set' full id g (sel.ids.contains id && selHolds sel kvs) → (k g).All (SOk full id kvs) (LOk full id kvs) Q) :
    ∀ (ids before : List Nat) (acc : GSet), sel.ids = before ++ ids → Set' full id acc (before.contains id && selHolds sel kvs) →
      (lookups sel ids acc k).All (SOk full id kvs) (LOk full id kvs) Q := by
  intro ids
  induction ids with
  | nil => intro before acc e h; rw [List.append_nil] at e; rw [lookups]; exact hk acc (e ▸ h)
  | cons a ids ih =>
    intro before acc e h
    rw [lookups]
    intro o ho
    refine ih (before ++ [a]) _ (by simp [e]) ?_
    obtain ⟨h1, h2, h3⟩ := h
    have hc : (before ++ [a]).contains id = (before.contains id || id == a) := by
      rw [Bool.eq_iff_iff]; simp
    rw [hc]
    by_cases ha : a = id
    · subst ha
      obtain ⟨h4, h5⟩ := ho rfl
      simp only [beq_self_eq_true, Bool.or_true, Bool.true_and]
      cases o with
      | none =>
        refine ⟨h1, fun hx => ?_, fun hf _ => ?_⟩
        · have := h2 hx; simp at this; exact this.2
        · exact absurd (h5 hf) (by simp)
      | some kvs' =>
        have := h4 kvs' rfl; subst this
        simp only [take, Assoc.matchKeyValues_holds hv]
        split
        next hs => exact ⟨Assoc.GSet.nodup_add h1, fun _ => hs, fun _ _ => Assoc.GSet.mem_add.2 (.inr rfl)⟩
        next hs => exact ⟨h1, fun hx => by have := h2 hx; simp at this; exact this.2, fun _ hb => absurd hb hs⟩
    · have e0 : (id == a) = false := by simpa using Ne.symm ha
      rw [e0, Bool.or_false]
      unfold take
      split
      · split
        · refine ⟨Assoc.GSet.nodup_add h1, fun hx => ?_, fun hf hb => Assoc.GSet.mem_add.2 (.inl (h3 hf hb))⟩
          rcases Assoc.GSet.mem_add.1 hx with hx | hx
          · exact h2 hx
          · exact absurd hx.symm ha
        · exact ⟨h1, h2, h3⟩
      · exact ⟨h1, h2, h3⟩

/-- The state of the loop over the keys, as far as one id is concerned. -/
structure LoopI (full : Prop) (id : Nat) (kvs : KVs K) (sel : Selection K) (before : List (GoString × ValueQuery K)) (st : FindState) : Prop where
  vnone : st.valid = none → ∀ kq ∈ before, kq.2.cmp = .ne
  vsome : ∀ s, st.valid = some s → s.Nodup ∧ About full id s (inBounds sel.min sel.max kvs.length && before.all fun kq => decide (kq.2.cmp = .ne) || treeHolds kvs kq)
  inone : st.invalid = none → ∀ kq ∈ before, kq.2.cmp ≠ .ne
  isome : ∀ s, st.invalid = some s → (∃ kq ∈ before, kq.2.cmp = .ne) ∧ About full id s (inBounds sel.min sel.max kvs.length && before.all fun kq => decide (kq.2.cmp ≠ .ne) || treeHolds kvs kq)

theorem About.join {g g' : List Nat} {b b' : Bool} (h : About full id g b) (h' : About full id g' b') : About full id (GSet.inter g g') (b && b') := by
  refine ⟨fun hx => ?_, fun hf hb => ?_⟩
  · rw [Assoc.GSet.mem_inter] at hx; simp [h.1 hx.1, h'.1 hx.2]
  · simp only [Bool.and_eq_true] at hb; exact Assoc.GSet.mem_inter.2 ⟨h.2 hf hb.1, h'.2 hf hb.2⟩

theorem About.union {g g' : List Nat} {b b' : Bool} (h : About full id g b) (h' : About full id g' b') : About full id (GSet.addBulk g g') (b || b') := by
  refine ⟨fun hx => ?_, fun hf hb => ?_⟩
  · rcases Assoc.GSet.mem_addBulk.1 hx with hx | hx
    · simp [h.1 hx]
    · simp [h'.1 hx]
  · simp only [Bool.or_eq_true] at hb
    exact Assoc.GSet.mem_addBulk.2 (hb.imp (h.2 hf) (h'.2 hf))

theorem About.new {g : List Nat} {b : Bool} (h : About full id g b) : About full id (GSet.new g) b := by
  refine ⟨fun hx => h.1 ?_, fun hf hb => ?_⟩
  · rcases Assoc.GSet.mem_addBulk.1 hx with hx | hx
    · cases hx
    · exact hx
  · exact Assoc.GSet.mem_addBulk.2 (.inr (h.2 hf hb))

theorem About.congr {g : List Nat} {b b' : Bool} (h : About full id g b) (e : b = b') : About full id g b' := e ▸ h

theorem nodup_new {l : List Nat} : (GSet.new l).Nodup := Assoc.GSet.nodup_addBulk List.nodup_nil

theorem LoopI.next {sel : Selection K} {before : List (GoString × ValueQuery K)} {st : FindState} (h : LoopI full id kvs sel before st) (kq : GoString × ValueQuery K) {all : List Nat}
    (ha : SOk full id kvs ⟨some kq, sel.min, sel.max⟩ all) : LoopI full id kvs sel (before ++ [kq]) (joinStep st kq.2 all) := by
  have ha' : About full id all (inBounds sel.min sel.max kvs.length && treeHolds kvs kq) := ha
  unfold joinStep
  by_cases hc : kq.2.cmp = .ne
  · rw [if_pos hc]
    refine ⟨fun e x hx => ?_, fun s e => ?_, fun e => ?_, fun s e => ?_⟩
    · rcases List.mem_append.1 hx with hx | hx
      · exact h.vnone e x hx
      · rw [List.mem_singleton] at hx; subst hx; exact hc
    · obtain ⟨h1, h2⟩ := h.vsome s e
      refine ⟨h1, h2.congr ?_⟩
      simp [hc]
    · simp only [join] at e; split at e <;> cases e
    · refine ⟨⟨kq, by simp, hc⟩, ?_⟩
      cases hi : st.invalid with
      | none =>
        rw [hi] at e; simp only [join, Option.some.injEq] at e; subst e
        refine ha'.new.congr ?_
        have hno := h.inone hi
        have : (before.all fun kq => decide (kq.2.cmp ≠ .ne) || treeHolds kvs kq) = true := by
          rw [List.all_eq_true]; intro y hy; simp [hno y hy]
        rw [List.all_append, this]; simp [hc]
      | some g =>
        rw [hi] at e; simp only [join, Option.some.injEq] at e; subst e
        refine ((h.isome g hi).2.join ha').congr ?_
        rw [List.all_append]
        simp only [List.all_cons, List.all_nil, hc, ne_eq, not_true_eq_false, decide_false, Bool.false_or, Bool.and_true]
        cases inBounds sel.min sel.max kvs.length <;> simp
  · rw [if_neg hc]
    refine ⟨fun e => ?_, fun s e => ?_, fun e x hx => ?_, fun s e => ?_⟩
    · simp only [join] at e; split at e <;> cases e
    · cases hi : st.valid with
      | none =>
        rw [hi] at e; simp only [join, Option.some.injEq] at e; subst e
        refine ⟨nodup_new, ha'.new.congr ?_⟩
        have hno := h.vnone hi
        have : (before.all fun kq => decide (kq.2.cmp = .ne) || treeHolds kvs kq) = true := by
          rw [List.all_eq_true]; intro y hy; simp [hno y hy]
        rw [List.all_append, this]; simp [hc]
      | some g =>
        rw [hi] at e; simp only [join, Option.some.injEq] at e; subst e
        refine ⟨Assoc.GSet.nodup_inter, ((h.vsome g hi).2.join ha').congr ?_⟩
        rw [List.all_append]
        simp only [List.all_cons, List.all_nil, hc, decide_false, Bool.false_or, Bool.and_true]
        cases inBounds sel.min sel.max kvs.length <;> simp
    · rcases List.mem_append.1 hx with hx | hx
      · exact h.inone e x hx
      · rw [List.mem_singleton] at hx; subst hx; exact hc
    · obtain ⟨⟨y, hy, hyc⟩, h2⟩ := h.isome s e
      refine ⟨⟨y, List.mem_append_left _ hy, hyc⟩, h2.congr ?_⟩
      rw [List.all_append]; simp [hc]

theorem keyLoop_all {sel : Selection K} {k : GSet ⊕ FindState → Prog K} 
    (hin : (full → selTree sel kvs = false) → (k (.inl [])).All (SOk full id kvs) (LOk full id kvs) Q)
    (hout : ∀ st, LoopI full id kvs sel sel.kvs st → (k (.inr st)).All (SOk full id kvs) (LOk full id kvs) Q) :
    ∀ (rest before : List (GoString × ValueQuery K)) (st : FindState), sel.kvs = before ++ rest → LoopI full id kvs sel before st →
      (keyLoop sel rest st k).All (SOk full id kvs) (LOk full id kvs) Q := by
  intro rest
  induction rest with
  | nil => intro before st e h; rw [List.append_nil] at e; rw [keyLoop]; exact hout st (e ▸ h)
  | cons kq rest ih =>
    intro before st e h
    rw [keyLoop]
    intro all ha
    have hn := h.next kq ha
    show Prog.All _ _ _ (if (joinStep st kq.2 all).valid = some [] then k (.inl []) else keyLoop sel rest (joinStep st kq.2 all) k)
    split
    next hv =>
      refine hin fun hf => ?_
      have h2 := (hn.vsome [] hv).2
      cases hs : selTree sel kvs with
      | false => rfl
      | true =>
        unfold selTree at hs
        rw [e] at hs
        have e' : before ++ kq :: rest = (before ++ [kq]) ++ rest := by simp
        rw [e', List.all_append (xs := before ++ [kq])] at hs
        simp only [Bool.and_eq_true] at hs
        have := h2.2 hf (by simp only [Bool.and_eq_true]; exact ⟨hs.1.1, hs.1.2.1⟩)
        cases this
    · exact ih (before ++ [kq]) _ (by simp [e]) hn

theorem without_spec {v : GSet} {inv : Option GSet} {x : Nat} : x ∈ without v inv ↔ x ∈ v ∧ x ∉ inv.getD [] := Assoc.GSet.mem_removeAll

/-- The valid ids without the invalid ones. -/
theorem without_about {sel : Selection K} (hf : SelFine full sel) (hid : sel.ids = []) {st : FindState} (h : LoopI full id kvs sel sel.kvs st) {v : GSet} (hn : v.Nodup)
    (hv : About full id v (inBounds sel.min sel.max kvs.length && sel.kvs.all fun kq => decide (kq.2.cmp = .ne) || treeHolds kvs kq)) :
    Set' full id (without v st.invalid) (selHolds sel kvs) := by
  rw [← Assoc.selTree_holds hf.1.1 hid hf.1.2]
  refine ⟨Assoc.GSet.nodup_removeAll hn, fun hx => ?_, fun hfu hs => ?_⟩
  · rw [without_spec] at hx
    have hb := hv.1 hx.1
    unfold selTree
    rw [hb, Bool.true_and, Bool.not_eq_true', Bool.and_eq_false_iff]
    rcases hf.2 with hfu | hne
    · cases hi : st.invalid with
      | none =>
        left
        rw [List.any_eq_false]
        intro y hy; simpa using h.inone hi y hy
      | some g =>
        right
        rw [hi, Option.getD_some] at hx
        cases ha : (sel.kvs.all fun kq => decide (kq.2.cmp ≠ .ne) || treeHolds kvs kq) with
        | false => rfl
        | true =>
          simp only [Bool.and_eq_true] at hb
          exact absurd ((h.isome g hi).2.2 hfu (by rw [ha, hb.1]; rfl)) hx.2
    · left
      rw [List.any_eq_false]
      intro y hy
      have := (hne.resolve_left (fun h => h hid)) y hy
      simpa using this
  · unfold selTree at hs
    rw [Bool.and_eq_true] at hs
    refine without_spec.2 ⟨hv.2 hfu hs.1, fun hx => ?_⟩
    cases hi : st.invalid with
    | none => rw [hi] at hx; cases hx
    | some g =>
      rw [hi, Option.getD_some] at hx
      obtain ⟨⟨y, hy, hyc⟩, h2⟩ := h.isome g hi
      have h3 := h2.1 hx
      simp only [Bool.and_eq_true] at h3
      have h4 : (sel.kvs.any fun kq => decide (kq.2.cmp = .ne)) = true := List.any_eq_true.2 ⟨y, hy, by simp [hyc]⟩
      rw [h4, h3.2] at hs
      simp at hs

theorem findIDs_all {sel : Selection K} (hf : SelFine full sel) {k : GSet → Prog K}
    (hk : ∀ g, Set' full id g ((sel.ids.isEmpty || sel.ids.contains id) && selHolds sel kvs) → (k g).All (SOk full id kvs) (LOk full id kvs) Q) :
    (findIDs sel k).All (SOk full id kvs) (LOk full id kvs) Q := by
  unfold findIDs
  split
  next hid =>
    refine lookups_all hf.1.1 (fun g hg => hk g ?_) sel.ids [] [] rfl ⟨List.nodup_nil, (fun h => by cases h), (fun _ h => by simp at h)⟩
    have : sel.ids.isEmpty = false := by simpa using hid
    rw [this, Bool.false_or]; exact hg
  next hid =>
    have hid : sel.ids = [] := Classical.not_not.1 hid
    have e : (sel.ids.isEmpty || sel.ids.contains id) = true := by simp [hid]
    rw [e] at hk
    simp only [Bool.true_and] at hk
    refine keyLoop_all (fun hno => ?_) (fun st hst => ?_) sel.kvs [] ⟨none, none⟩ rfl ⟨by simp, by simp, by simp, by simp⟩
    · rw [lastly]
      refine hk [] ⟨List.nodup_nil, fun h => (by cases h), fun hfu hs => ?_⟩
      rw [← Assoc.selTree_holds hf.1.1 hid hf.1.2, hno hfu] at hs
      cases hs
    · obtain ⟨v, inv⟩ := st
      cases v with
      | some v =>
        rw [lastly]
        obtain ⟨h1, h2⟩ := hst.vsome v rfl
        exact hk _ (without_about hf hid hst h1 h2)
      | none =>
        rw [lastly]
        intro all ha
        refine hk _ (without_about hf hid hst nodup_new (About.new ?_))
        have hall := hst.vnone rfl
        have : (sel.kvs.all fun kq => decide (kq.2.cmp = .ne) || treeHolds kvs kq) = true := by
          rw [List.all_eq_true]; intro y hy; simp [hall y hy]
        rw [this]
        exact ha

end

/-- `idOk` for an id. -/
def idOk (id : Nat) : List Nat → Bool := fun ids => ids.isEmpty || ids.contains id

section
variable {full : Prop} {id : Nat} {kvs : KVs K} {Q : Option GSet → Prop}

mutual
theorem query_all : ∀ (q : Query K) (k : Option GSet → Prog K), everywhere (SelFine full) Asks q → Asks q →
    (∀ g, Set' full id g (queryHolds (idOk id) kvs q) → (k (some g)).All (SOk full id kvs) (LOk full id kvs) Q) → (query q k).All (SOk full id kvs) (LOk full id kvs) Q
  | .mk (some sel) or and nl, k, he, _, hk => by
    simp only [everywhere] at he
    rw [query]
    refine findIDs_all (he.1 sel rfl) fun g hg => ?_
    refine ands_all and _ g _ he.2.2 hg fun g1 hg1 => ?_
    refine ors_all or _ g1 _ he.2.1 hg1 fun g2 hg2 => hk g2 ?_
    have e : queryHolds (idOk id) kvs (.mk (some sel) or and nl) =
        ((sel.ids.isEmpty || sel.ids.contains id) && selHolds sel kvs && allHold (idOk id) kvs and || anyHolds (idOk id) kvs or) := by
      simp [queryHolds, Option.all, idOk]
    rw [e]; exact hg2
  | .mk none or (a :: and) nl, k, he, _, hk => by
    simp only [everywhere, everywhereL] at he
    rw [query, queryAnds]
    refine query_all a _ he.2.2.2.1 he.2.2.1 fun g hg => ?_
    refine ands_all and _ g _ he.2.2.2.2 hg fun g1 hg1 => ?_
    refine ors_all or _ g1 _ he.2.1 hg1 fun g2 hg2 => hk g2 ?_
    have e : queryHolds (idOk id) kvs (.mk none or (a :: and) nl) = (queryHolds (idOk id) kvs a && allHold (idOk id) kvs and || anyHolds (idOk id) kvs or) := by
      simp [queryHolds, allHold, Option.all]
    rw [e]; exact hg2
  | .mk none (o :: or) [] nl, k, he, _, hk => by
    simp only [everywhere, everywhereL] at he
    rw [query, queryAnds, queryOrs]
    refine query_all o _ he.2.1.2.1 he.2.1.1 fun g hg => ?_
    refine ors_all or _ g _ he.2.1.2.2 hg fun g2 hg2 => hk g2 ?_
    have e : queryHolds (idOk id) kvs (.mk none (o :: or) [] nl) = (queryHolds (idOk id) kvs o || anyHolds (idOk id) kvs or) := by
      simp [queryHolds, anyHolds, Option.all]
    rw [e]; exact hg2
  | .mk none [] [] nl, k, _, ha, _ => by simp [Asks] at ha
theorem ands_all : ∀ (qs : List (Query K)) (k : Bool → Option GSet → Prog K) (g : GSet) (b : Bool), everywhereL (SelFine full) Asks qs → Set' full id g b →
    (∀ g, Set' full id g (b && allHold (idOk id) kvs qs) → (k true (some g)).All (SOk full id kvs) (LOk full id kvs) Q) →
    (queryAnds true (some g) qs k).All (SOk full id kvs) (LOk full id kvs) Q
  | [], k, g, b, _, hg, hk => by
    rw [queryAnds]
    refine hk g ?_
    simpa [allHold] using hg
  | q :: qs, k, g, b, he, hg, hk => by
    simp only [everywhereL] at he
    rw [queryAnds]
    split
    next hn =>
      refine hk [] ⟨List.nodup_nil, fun h => (by cases h), fun hf hb => ?_⟩
      simp only [Bool.and_eq_true] at hb
      have := hg.2.2 hf hb.1
      rw [hn] at this; cases this
    · refine query_all q _ he.2.1 he.1 fun g' hg' => ?_
      refine ands_all qs k _ (b && queryHolds (idOk id) kvs q) he.2.2 ⟨Assoc.GSet.nodup_inter, hg.2.join hg'.2⟩ fun g2 hg2 => hk g2 ?_
      rw [allHold, ← Bool.and_assoc]; exact hg2
theorem ors_all : ∀ (qs : List (Query K)) (k : Option GSet → Prog K) (g : GSet) (b : Bool), everywhereL (SelFine full) Asks qs → Set' full id g b →
    (∀ g, Set' full id g (b || anyHolds (idOk id) kvs qs) → (k (some g)).All (SOk full id kvs) (LOk full id kvs) Q) →
    (queryOrs true (some g) qs k).All (SOk full id kvs) (LOk full id kvs) Q
  | [], k, g, b, _, hg, hk => by
    rw [queryOrs]
    refine hk g ?_
    simpa [anyHolds] using hg
  | q :: qs, k, g, b, he, hg, hk => by
    simp only [everywhereL] at he
    rw [queryOrs]
    refine query_all q _ he.2.1 he.1 fun g' hg' => ?_
    refine ors_all qs k _ (b || queryHolds (idOk id) kvs q) he.2.2 ⟨Assoc.GSet.nodup_addBulk hg.1, hg.2.union hg'.2⟩ fun g2 hg2 => hk g2 ?_
    rw [anyHolds, ← Bool.or_assoc]; exact hg2
end

/-- The whole query. -/
theorem prog_all {q : Query K} (he : everywhere (SelFine full) Asks q) (ha : Asks q) :
    (query q .ret).All (SOk full id kvs) (LOk full id kvs) (fun r => ∃ g, r = some g ∧ g.Nodup ∧ About full id g (queryHolds (idOk id) kvs q)) :=
  query_all q .ret he ha fun g hg => ⟨g, rfl, hg.1, hg.2⟩

end

end Willow.QueryConc
