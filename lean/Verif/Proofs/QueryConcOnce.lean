import Verif.Proofs.QueryConcRun
/-! No item is reported twice by one query, a callback that asks for no more is not called again, queries that ask for something do not panic: C95. -/
namespace Willow.QueryConc
set_option linter.unusedSectionVars false
open Willow.AssocConc (St Step Item Event Inv Call Thread)
open Willow.Assoc (Query Selection ValueQuery GSet FindState KVs)
open Willow.Spec (everywhere everywhereL Asks IsEmptyQuery)
open Willow.BTree (LawfulKey)
open Willow.MatchConc (get_set get_append)

variable {K A : Type} [LawfulKey K]

/-- `Q` holds of the result whatever the answers are. -/
abbrev Prog.Always (Q : Option GSet → Prop) (p : Prog K) : Prop := p.All (fun _ _ => True) (fun _ _ => True) Q

section
variable {Q : Option GSet → Prop}

theorem lookups_always {sel : Selection K} {k : GSet → Prog K} (hk : ∀ g, g.Nodup → (k g).Always Q) : ∀ (ids : List Nat) (acc : GSet), acc.Nodup → (lookups sel ids acc k).Always Q
  | [], acc, h => by rw [lookups]; exact hk acc h
  | id :: ids, acc, h => by
    rw [lookups]
    intro o _
    refine lookups_always hk ids _ ?_
    unfold take
    split
    · split
      · exact Assoc.GSet.nodup_add h
      · exact h
    · exact h

theorem keyLoop_always {sel : Selection K} {k : GSet ⊕ FindState → Prog K} (hin : (k (.inl [])).Always Q)
    (hout : ∀ st, (∀ g, st.valid = some g → g.Nodup) → (k (.inr st)).Always Q) : ∀ (l : List (GoString × ValueQuery K)) (st : FindState), (∀ g, st.valid = some g → g.Nodup) →
    (keyLoop sel l st k).Always Q
  | [], st, h => by rw [keyLoop]; exact hout st h
  | kq :: l, st, h => by
    rw [keyLoop]
    intro all _
    show Prog.Always Q (if (joinStep st kq.2 all).valid = some [] then k (.inl []) else keyLoop sel l (joinStep st kq.2 all) k)
    split
    · exact hin
    · refine keyLoop_always hin hout l _ ?_
      intro g hg
      unfold joinStep at hg
      split at hg
      · exact h g hg
      · simp only [join] at hg
        split at hg
        · cases hg; exact Assoc.GSet.nodup_inter
        · cases hg; exact nodup_new

theorem findIDs_always {sel : Selection K} {k : GSet → Prog K} (hk : ∀ g, g.Nodup → (k g).Always Q) : (findIDs sel k).Always Q := by
  unfold findIDs
  split
  · exact lookups_always hk _ _ List.nodup_nil
  · refine keyLoop_always (by rw [lastly]; exact hk _ List.nodup_nil) (fun st hst => ?_) _ _ (by simp)
    obtain ⟨v, inv⟩ := st
    cases v with
    | some v => rw [lastly]; exact hk _ (Assoc.GSet.nodup_removeAll (hst v rfl))
    | none => rw [lastly]; intro all _; exact hk _ (Assoc.GSet.nodup_removeAll nodup_new)

mutual
theorem query_nodup (hn : Q none) : ∀ (q : Query K) (k : Option GSet → Prog K), (∀ o, (∀ g, o = some g → g.Nodup) → (k o).Always Q) → (query q k).Always Q
  | .mk (some sel) or and nl, k, hk => by
    rw [query]
    refine findIDs_always fun g hg => ?_
    exact ands_nodup hn and true _ _ (fun g' e => by cases e; exact hg) fun c o ho => ors_nodup hn or c _ _ ho hk
  | .mk none or and nl, k, hk => by
    rw [query]
    exact ands_nodup hn and false _ _ (fun g' e => by cases e) fun c o ho => ors_nodup hn or c _ _ ho hk
theorem ands_nodup (hn : Q none) : ∀ (qs : List (Query K)) (c : Bool) (o : Option GSet) (k : Bool → Option GSet → Prog K), (∀ g, o = some g → g.Nodup) →
    (∀ c o, (∀ g, o = some g → g.Nodup) → (k c o).Always Q) → (queryAnds c o qs k).Always Q
  | [], c, o, k, ho, hk => by rw [queryAnds]; exact hk c o ho
  | q :: qs, true, none, k, ho, hk => by rw [queryAnds]; exact hn
  | q :: qs, true, some g, k, ho, hk => by
    rw [queryAnds]
    split
    · exact hk _ _ (fun g' e => by cases e; exact List.nodup_nil)
    · refine query_nodup hn q _ fun sub hsub => ?_
      cases sub with
      | none => exact hn
      | some sub => exact ands_nodup hn qs true _ k (fun g' e => by cases e; exact Assoc.GSet.nodup_inter) hk
  | q :: qs, false, o, k, ho, hk => by
    rw [queryAnds]
    exact query_nodup hn q _ fun sub hsub => ands_nodup hn qs true sub k hsub hk
theorem ors_nodup (hn : Q none) : ∀ (qs : List (Query K)) (c : Bool) (o : Option GSet) (k : Option GSet → Prog K), (∀ g, o = some g → g.Nodup) →
    (∀ o, (∀ g, o = some g → g.Nodup) → (k o).Always Q) → (queryOrs c o qs k).Always Q
  | [], c, o, k, ho, hk => by rw [queryOrs]; exact hk o ho
  | q :: qs, true, o, k, ho, hk => by
    rw [queryOrs]
    refine query_nodup hn q _ fun sub hsub => ?_
    cases o with
    | none => exact hn
    | some g => cases sub with
      | none => exact hn
      | some sub => exact ors_nodup hn qs true _ k (fun g' e => by cases e; exact Assoc.GSet.nodup_addBulk (ho g rfl)) hk
  | q :: qs, false, o, k, ho, hk => by
    rw [queryOrs]
    exact query_nodup hn q _ fun sub hsub => ors_nodup hn qs true sub k hsub hk
end

mutual
theorem query_asks : ∀ (q : Query K) (k : Option GSet → Prog K), everywhere (fun _ => True) Asks q → Asks q → (∀ g, (k (some g)).Always Q) → (query q k).Always Q
  | .mk (some sel) or and nl, k, he, _, hk => by
    simp only [everywhere] at he
    rw [query]
    exact findIDs_always fun g _ => ands_asks and g _ he.2.2 fun g1 => ors_asks or g1 _ he.2.1 hk
  | .mk none or (a :: and) nl, k, he, _, hk => by
    simp only [everywhere, everywhereL] at he
    rw [query, queryAnds]
    exact query_asks a _ he.2.2.2.1 he.2.2.1 fun g => ands_asks and g _ he.2.2.2.2 fun g1 => ors_asks or g1 _ he.2.1 hk
  | .mk none (o :: or) [] nl, k, he, _, hk => by
    simp only [everywhere, everywhereL] at he
    rw [query, queryAnds, queryOrs]
    exact query_asks o _ he.2.1.2.1 he.2.1.1 fun g => ors_asks or g _ he.2.1.2.2 hk
  | .mk none [] [] nl, k, _, ha, _ => by simp [Asks] at ha
theorem ands_asks : ∀ (qs : List (Query K)) (g : GSet) (k : Bool → Option GSet → Prog K), everywhereL (fun _ => True) Asks qs → (∀ g, (k true (some g)).Always Q) →
    (queryAnds true (some g) qs k).Always Q
  | [], g, k, _, hk => by rw [queryAnds]; exact hk g
  | q :: qs, g, k, he, hk => by
    simp only [everywhereL] at he
    rw [queryAnds]
    split
    · exact hk _
    · exact query_asks q _ he.2.1 he.1 fun g' => ands_asks qs _ k he.2.2 hk
theorem ors_asks : ∀ (qs : List (Query K)) (g : GSet) (k : Option GSet → Prog K), everywhereL (fun _ => True) Asks qs → (∀ g, (k (some g)).Always Q) →
    (queryOrs true (some g) qs k).Always Q
  | [], g, k, _, hk => by rw [queryOrs]; exact hk g
  | q :: qs, g, k, he, hk => by
    simp only [everywhereL] at he
    rw [queryOrs]
    exact query_asks q _ he.2.1 he.1 fun g' => ors_asks qs _ k he.2.2 hk
end
end

/-- What holds of the result of a query. -/
def Good (q : Query K) (r : Option GSet) : Prop := (∀ g, r = some g → g.Nodup) ∧ (everywhere (fun _ => True) Asks q → Asks q → r ≠ none)

theorem All.and {S : Search K → List Nat → Prop} {L : Nat → Option (KVs K) → Prop} {Q Q' : Option GSet → Prop} : ∀ {p : Prog K}, p.All S L Q → p.All S L Q' → p.All S L (fun r => Q r ∧ Q' r)
  | .ret _, h, h' => ⟨h, h'⟩
  | .search _ k, h, h' => fun ids hs => All.and (p := k ids) (h ids hs) (h' ids hs)
  | .lookup _ k, h, h' => fun o ho => All.and (p := k o) (h o ho) (h' o ho)

theorem All.triv {S : Search K → List Nat → Prop} {L : Nat → Option (KVs K) → Prop} {Q : Option GSet → Prop} (hQ : ∀ r, Q r) : ∀ {p : Prog K}, p.All S L Q
  | .ret r => hQ r
  | .search _ k => fun ids _ => All.triv hQ (p := k ids)
  | .lookup _ k => fun o _ => All.triv hQ (p := k o)

theorem query_good (q : Query K) : (query q .ret).Always (Good q) := by
  refine All.and (query_nodup (fun _ h => by cases h) q _ fun o ho => ho) ?_
  by_cases h : everywhere (fun _ => True) Asks q ∧ Asks q
  · exact query_asks q _ h.1 h.2 fun g _ _ => by simp
  · exact All.triv fun r h1 h2 => absurd ⟨h1, h2⟩ h

/-- What holds of a query whatever happens. -/
def Fine (x : Job K A) : Phase K A → Prop
  | .think p => p.Always (Good x.query) ∧ ¬ IsEmptyQuery x.query
  | .search _ _ _ _ k => (∀ ids, (k ids).Always (Good x.query)) ∧ ¬ IsEmptyQuery x.query
  | .visit ids got => (got.map (·.1) ++ ids).Nodup ∧ ∀ y ∈ got, x.more y.2.val = true
  | .scan _ got => (got.map (·.1)).Nodup ∧ ∀ y ∈ got, x.more y.2.val = true
  | .done got => (got.map (·.1)).Nodup ∧ ∀ i y, got[i]? = some y → x.more y.2.val = false → i + 1 = got.length
  | .panicked => ¬ (everywhere (fun _ => True) Asks x.query ∧ (IsEmptyQuery x.query ∨ Asks x.query))

theorem last_of {x : Job K A} {got : List (Nat × Item K A)} {z : Nat × Item K A} (h : ∀ y ∈ got, x.more y.2.val = true) :
    ∀ i y, (got ++ [z])[i]? = some y → x.more y.2.val = false → i + 1 = (got ++ [z]).length := by
  intro i y hy hm
  rcases get_append hy with ⟨e, _⟩ | hy
  · rw [e]; simp
  · rw [h y (List.mem_of_getElem? hy)] at hm; cases hm

theorem none_of {x : Job K A} {got : List (Nat × Item K A)} (h : ∀ y ∈ got, x.more y.2.val = true) : ∀ i y, got[i]? = some y → x.more y.2.val = false → i + 1 = got.length := by
  intro i y hy hm
  rw [h y (List.mem_of_getElem? hy)] at hm; cases hm

theorem Fine.begin [DecidableEq K] (s : St K A) (x : Job K A) : Fine x (start s x.query) := by
  unfold start
  split
  · exact ⟨List.nodup_nil, fun y h => by cases h⟩
  next h => exact ⟨query_good _, fun he => h (empty_selectsAll.2 he)⟩

theorem Fine.job {x x' : Job K A} (h1 : x'.query = x.query) (h2 : x'.more = x.more) {p : Phase K A} (h : Fine x p) : Fine x' p := by
  obtain ⟨q, more, ph, r⟩ := x
  obtain ⟨q', more', ph', r'⟩ := x'
  simp only at h1 h2
  subst h1; subst h2
  cases p <;> exact h

variable [DecidableEq K]

theorem Fine.step {blocks : (Nat → Option (Item K A)) → Nat → Nat → Bool} {s s' : Sys K A} {e : Option (Ev K A)} (hs : QStep blocks s e s')
    (h : ∀ (m : Nat) (x : Job K A), s.js[m]? = some x → Fine x x.phase) : ∀ (m : Nat) (x : Job K A), s'.js[m]? = some x → Fine x x.phase := by
  intro m x hm
  have key : ∀ {m' : Nat} {y : Job K A} {ph : Phase K A}, (s.js.set m' { y with phase := ph })[m]? = some x → s.js[m']? = some y → (Fine y y.phase → Fine y ph) → Fine x x.phase := by
    intro m' y ph hm hy hf
    rcases get_set hy hm with ⟨h1, h2⟩ | ⟨_, hm⟩
    · subst h2; exact (hf (h m' y hy)).job rfl rfl
    · exact h m x hm
  cases hs with
  | other _ => exact h m x hm
  | call q more =>
    rcases get_append hm with ⟨_, e⟩ | hm
    · subst e; exact Fine.begin s.tree ⟨q, more, start s.tree q, false⟩
    · exact h m x hm
  | search m y hy hp =>
    refine key hm hy fun h => ?_
    rw [hp] at h
    exact ⟨fun ids => h.1 ids trivial, h.2⟩
  | node m y p hy hp hc hn =>
    refine key hm hy fun h => ?_
    rw [hp] at h
    unfold nextNode at hn
    split at hn
    · cases hn
    · split at hn
      · cases hn
      · cases hn; exact h
  | found m y hy hp hall =>
    refine key hm hy fun h => ?_
    rw [hp] at h
    exact ⟨h.1 _, h.2⟩
  | lookup m y hy hp ho =>
    refine key hm hy fun h => ?_
    rw [hp] at h
    exact ⟨h.1 _ trivial, h.2⟩
  | eval m y ids hy hp ho =>
    refine key hm hy fun h => ?_
    rw [hp] at h
    exact ⟨by simpa using ho.nodup_iff.2 (h.1.1 _ rfl), fun y h => by cases h⟩
  | panic m y hy hp =>
    refine key hm hy fun h => ?_
    rw [hp] at h
    rintro ⟨h1, h2⟩
    rcases h2 with h2 | h2
    · exact h.2 h2
    · exact h.1.2 h1 h2 rfl
  | @report m y id rest got it hy hp hd hb hit =>
    refine key hm hy fun h => ?_
    rw [hp] at h
    obtain ⟨h1, h2⟩ := h
    have hn : ((got ++ [(id, it)]).map (·.1) ++ rest).Nodup := by simpa using h1
    unfold afterReport
    split
    next hmo =>
      refine ⟨hn, fun z hz => ?_⟩
      rcases List.mem_append.1 hz with hz | hz
      · exact h2 z hz
      · rw [List.mem_singleton] at hz; subst hz; exact hmo
    · exact ⟨(List.nodup_append.1 hn).1, last_of h2⟩
  | @miss m y id rest got hy hp hmi =>
    refine key hm hy fun h => ?_
    rw [hp] at h
    exact ⟨h.1.sublist ((List.Sublist.refl _).append (List.sublist_cons_self _ _)), h.2⟩
  | finish m y hy hp =>
    refine key hm hy fun h => ?_
    rw [hp] at h
    exact ⟨by simpa using h.1, none_of h.2⟩
  | @scan m y start got id it hy hp hn hb hit =>
    refine key hm hy fun h => ?_
    rw [hp] at h
    obtain ⟨h1, h2⟩ := h
    have hn : ((got ++ [(id, it)]).map (·.1)).Nodup := by
      rw [List.map_append, List.nodup_append]
      refine ⟨h1, by simp, ?_⟩
      intro a ha b hb e
      simp only [List.map_cons, List.map_nil, List.mem_singleton] at hb
      subst hb; subst e; exact hn ha
    unfold afterScan
    split
    next hmo =>
      refine ⟨hn, fun z hz => ?_⟩
      rcases List.mem_append.1 hz with hz | hz
      · exact h2 z hz
      · rw [List.mem_singleton] at hz; subst hz; exact hmo
    · exact ⟨hn, last_of h2⟩
  | scanned m y hy hp hall =>
    refine key hm hy fun h => ?_
    rw [hp] at h
    exact ⟨h.1, none_of h.2⟩
  | ret m y hy hp hr =>
    rcases get_set hy hm with ⟨h1, h2⟩ | ⟨_, hm⟩
    · subst h2; exact (h m y hy).job rfl rfl
    · exact h _ x hm

theorem Fine.run {blocks : (Nat → Option (Item K A)) → Nat → Nat → Bool} {P : Sys K A → Prop} {s s' : Sys K A} {evs : List (Ev K A)} (hr : QRun blocks P s evs s')
    (h0 : ∀ (m : Nat) (x : Job K A), s.js[m]? = some x → Fine x x.phase) : ∀ (m : Nat) (x : Job K A), s'.js[m]? = some x → Fine x x.phase := by
  induction hr with
  | nil _ => exact h0
  | step h h' _ ih => exact Fine.step h' ih

section
variable [Inhabited K] {blocks : (Nat → Option (Item K A)) → Nat → Nat → Bool} {P : Sys K A → Prop} {s : Sys K A} {evs : List (Ev K A)}

theorem reported_once (h : QRun blocks P Sys.init evs s) (m : Nat) : ((reports m evs).map (·.1)).Nodup := by
  have hb : Book evs s := by simpa using Book.run Book.init h
  have hf := Fine.run h fun m x hm => by simp [Sys.init] at hm
  by_cases hm : m < s.js.length
  · have hx := List.getElem?_eq_getElem hm
    rw [← hb.reps m _ hx]
    have := hf m _ hx
    generalize s.js[m] = x at this hx ⊢
    cases hp : x.phase with
    | visit ids got => rw [hp] at this; exact (List.nodup_append.1 this.1).1
    | scan st got => rw [hp] at this; exact this.1
    | done got => rw [hp] at this; exact this.1
    | _ => exact List.nodup_nil
  · rw [(hb.later m (by omega)).1]; exact List.nodup_nil

theorem stops (h : QRun blocks P Sys.init evs s) {m i : Nat} {q : Query K} {more : A → Bool} {y : Nat × Item K A} (hm : (queryCalls evs)[m]? = some (q, more))
    (hi : (reports m evs)[i]? = some y) (hy : more y.2.val = false) : i + 1 = (reports m evs).length := by
  have hb : Book evs s := by simpa using Book.run Book.init h
  have hf := Fine.run h fun m x hm => by simp [Sys.init] at hm
  rw [← hb.calls, List.getElem?_map] at hm
  cases hx : s.js[m]? with
  | none => rw [hx] at hm; cases hm
  | some x =>
    rw [hx] at hm
    simp only [Option.map_some, Option.some.injEq, Prod.mk.injEq] at hm
    obtain ⟨rfl, rfl⟩ := hm
    rw [← hb.reps m x hx] at hi ⊢
    have := hf m x hx
    cases hp : x.phase with
    | visit ids got => rw [hp] at this hi; have h2 := this.2 y (List.mem_of_getElem? hi); rw [hy] at h2; cases h2
    | scan st got => rw [hp] at this hi; have h2 := this.2 y (List.mem_of_getElem? hi); rw [hy] at h2; cases h2
    | done got => rw [hp] at this hi; exact this.2 i y hi hy
    | think p => rw [hp] at hi; simp [Phase.got] at hi
    | search _ _ _ _ _ => rw [hp] at hi; simp [Phase.got] at hi
    | panicked => rw [hp] at hi; simp [Phase.got] at hi

theorem no_panic (h : QRun blocks P Sys.init evs s) {m : Nat} {q : Query K} {more : A → Bool} (hm : (queryCalls evs)[m]? = some (q, more)) (he : everywhere (fun _ => True) Asks q)
    (ha : IsEmptyQuery q ∨ Asks q) : Ev.panic m ∉ evs := by
  intro hp
  have hb : Book evs s := by simpa using Book.run Book.init h
  have hf := Fine.run h fun m x hm => by simp [Sys.init] at hm
  rw [← hb.calls, List.getElem?_map] at hm
  cases hx : s.js[m]? with
  | none => rw [hx] at hm; cases hm
  | some x =>
    rw [hx] at hm
    simp only [Option.map_some, Option.some.injEq, Prod.mk.injEq] at hm
    obtain ⟨rfl, rfl⟩ := hm
    have := hf m x hx
    rw [hb.panics m x hx hp] at this
    exact this ⟨he, ha⟩
end

end Willow.QueryConc
