import Verif.Spec.Waiting
import Verif.Proofs.AssocMore
import Verif.Proofs.BTreeTree
/-
Proofs about waiting consumers.
-/
namespace Willow.Waiting
open Willow Willow.Assoc Willow.Spec Willow.WaitingSpec Willow.BTree

/-! ### Three-valued logic -/

theorem kand_nf {a b : Option Bool} (ha : a ≠ some false) (hb : b ≠ some false) : kand a b ≠ some false := by
  rcases a with _ | _ | _ <;> rcases b with _ | _ | _ <;> simp_all [kand]
theorem kor_nf_left {a b : Option Bool} (ha : a ≠ some false) : kor a b ≠ some false := by
  rcases a with _ | _ | _ <;> rcases b with _ | _ | _ <;> simp_all [kor]
theorem kor_nf_right {a b : Option Bool} (hb : b ≠ some false) : kor a b ≠ some false := by
  rcases a with _ | _ | _ <;> rcases b with _ | _ | _ <;> simp_all [kor]
theorem kand_true {a b : Option Bool} (h : kand a b = some true) : a = some true ∧ b = some true := by
  rcases a with _ | _ | _ <;> rcases b with _ | _ | _ <;> simp_all [kand]
theorem kor_true {a b : Option Bool} (h : kor a b = some true) : a = some true ∨ b = some true := by
  rcases a with _ | _ | _ <;> rcases b with _ | _ | _ <;> simp_all [kor]
theorem kall_nf : ∀ {l : List (Option Bool)}, (∀ a ∈ l, a ≠ some false) → kall l ≠ some false
  | [], _ => by simp [kall]
  | a :: as, h => kand_nf (h a (by simp)) (kall_nf (fun b hb => h b (by simp [hb])))
theorem kall_true : ∀ {l : List (Option Bool)}, kall l = some true → ∀ a ∈ l, a = some true
  | [], _, a, ha => by simp at ha
  | b :: as, h, a, ha => by
    have := kand_true h
    rcases List.mem_cons.1 ha with rfl | ha
    · exact this.1
    · exact kall_true this.2 a ha

/-! ### Results of searches -/

/-- A search that is over has found the id if it covers one of its key-values. -/
def Complete (S : Leaf → Option Bool) (kvs : KVs Key) (q : Query Key) : Prop :=
  ∀ path sel, selAt path q = some sel → inBounds sel.min sel.max kvs.length = true →
    ∀ key, (∃ x ∈ kvs, covers sel key x.1 x.2 = true) → S (path, key) ≠ some false

/-- A search finds only ids of which it covers a key-value. -/
def Sound (S : Leaf → Option Bool) (kvs : KVs Key) (q : Query Key) : Prop :=
  ∀ path sel key, selAt path q = some sel → S (path, key) = some true →
    inBounds sel.min sel.max kvs.length = true ∧ ∃ x ∈ kvs, covers sel key x.1 x.2 = true

theorem valueOf_mem {kvs : KVs Key} {k : GoString} {v : Key} (h : valueOf kvs k = some v) : (k, v) ∈ kvs := by
  unfold valueOf at h
  rcases ho : kvs.find? (fun kv => kv.1 == k) with _ | ⟨a, b⟩
  · simp [ho] at h
  · have h1 := List.find?_some ho
    have h2 := List.mem_of_find?_eq_some ho
    simp [ho] at h h1
    subst h; subst h1; exact h2

theorem valueOf_of_mem : ∀ {kvs : KVs Key}, (kvs.map (·.1)).Nodup → ∀ {x}, x ∈ kvs → valueOf kvs x.1 = some x.2
  | [], _, x, h => by simp at h
  | a :: as, hn, x, h => by
    simp only [List.map_cons, List.nodup_cons] at hn
    unfold valueOf
    rcases List.mem_cons.1 h with rfl | h
    · simp
    · have : (a.1 == x.1) = false := by
        simp only [beq_eq_false_iff_ne]; intro e; exact hn.1 (by rw [e]; exact List.mem_map_of_mem h)
      rw [List.find?_cons, this]
      exact valueOf_of_mem hn.2 h

theorem selecting_mem {sel : Selection Key} {kq} : kq ∈ selecting sel ↔ kq ∈ sel.kvs ∧ kq.2.cmp ≠ .ne := by simp [selecting]
theorem excluding_mem {sel : Selection Key} {kq} : kq ∈ excluding sel ↔ kq ∈ sel.kvs ∧ kq.2.cmp = .ne := by simp [excluding]

theorem holds_selects {vq : ValueQuery Key} {v : Key} (hv : ValidVQ vq) (hc : vq.cmp ≠ .ne) (h : valueHolds vq (some v) = true) :
    treeSelects vq.cmp vq.value vq.tr v = true := by
  obtain ⟨q, cmp, tr⟩ := vq
  obtain ⟨htr, hcmp⟩ := hv
  simp only at *
  have hhi := validTR_hi_le htr
  have hle := htr.2.2
  have htv := LawfulKey.typ_le v
  have hany : KeyOps.typ v = DataType.any → KeyOps.typ q ≠ DataType.any → KeyOps.lt q v = true := by
    intro h1 h2; exact LawfulKey.typ_lt (by have := LawfulKey.typ_le q; omega)
  have hanyr : KeyOps.typ v = DataType.any → KeyOps.lt v q = false := by
    intro h1
    cases h : KeyOps.lt v q with
    | false => rfl
    | true => exact absurd h1 (LawfulKey.any_top h)
  cases cmp
  · simp only [valueHolds] at h; rw [treeSelects_equals htr]; exact h
  · exact absurd rfl hc
  all_goals
    simp only [reduceCtorEq, or_true, true_or, or_false, false_or, true_imp_iff, false_imp_iff] at hcmp
    simp only [valueHolds, inside, before, wild, Bool.and_eq_true, Bool.or_eq_true, decide_eq_true_eq, Bool.not_eq_true'] at h
    simp only [treeSelects, Bool.or_eq_true, Bool.and_eq_true, decide_eq_true_eq, Bool.not_eq_true']
    cases h1 : KeyOps.lt v q <;> cases h2 : KeyOps.lt q v <;> simp [h1, h2] at * <;> omega

theorem covers_mem {sel : Selection Key} {kq} (h : kq ∈ sel.kvs) {v : Key} (ht : treeSelects kq.2.cmp kq.2.value kq.2.tr v = true) :
    covers sel (some kq.1) kq.1 v = true := by
  simp only [covers, beq_self_eq_true, Bool.true_and, List.any_eq_true, Bool.and_eq_true]
  exact ⟨kq, h, by simp, ht⟩

theorem covers_of {sel : Selection Key} (hn : (sel.kvs.map (·.1)).Nodup) {kq} (h : kq ∈ sel.kvs) {k : GoString} {v : Key}
    (hc : covers sel (some kq.1) k v = true) : k = kq.1 ∧ treeSelects kq.2.cmp kq.2.value kq.2.tr v = true := by
  simp only [covers, Bool.and_eq_true, beq_iff_eq, List.any_eq_true] at hc
  obtain ⟨h1, kq', h2, h3, h4⟩ := hc
  have : kq' = kq := by
    have h5 : sel.kvs.Pairwise (fun a b => a.1 ≠ b.1) := by simpa [List.Nodup, List.pairwise_map] using hn
    apply Classical.byContradiction
    intro hne
    have : ∀ (l : List (GoString × ValueQuery Key)), l.Pairwise (fun a b => a.1 ≠ b.1) → kq ∈ l → kq' ∈ l → False := by
      intro l hl
      induction hl with
      | nil => intro h; simp at h
      | cons ha hl ih =>
        intro m1 m2
        rcases List.mem_cons.1 m1 with e1 | n1 <;> rcases List.mem_cons.1 m2 with e2 | n2
        · exact hne (e2.trans e1.symm)
        · subst e1; exact ha _ n2 h3.symm
        · subst e2; exact ha _ n1 h3
        · exact ih n1 n2
    exact this _ h5 h h2
  subst this
  exact ⟨h1, h4⟩

theorem covers_congr {sel : Selection Key} {key : Option GoString} {x n : GoString × Key} (h : sameNode x n = true) :
    covers sel key n.1 n.2 = covers sel key x.1 x.2 := by
  simp only [sameNode, Bool.and_eq_true, beq_iff_eq] at h
  cases key with
  | none => rfl
  | some k0 =>
    simp only [covers]
    rw [h.1]
    congr 1
    congr 1
    funext kq
    rw [treeSelects_congr (v := n.2) (v' := x.2) (keq_symm h.2)]

theorem evalSel_nf {S : Leaf → Option Bool} {kvs : KVs Key} {sel : Selection Key} (hk : ValidKVs kvs) (hv : ValidSel sel)
    (hc : inBounds sel.min sel.max kvs.length = true → ∀ key, (∃ x ∈ kvs, covers sel key x.1 x.2 = true) → S ([], key) ≠ some false)
    (hs : ∀ key, S ([], key) = some true → ∃ x ∈ kvs, covers sel key x.1 x.2 = true)
    (hh : selHolds sel kvs = true) : evalSel S sel ≠ some false := by
  simp only [selHolds, Bool.and_eq_true, List.all_eq_true, ← inBounds_eq] at hh
  obtain ⟨hb, ha⟩ := hh
  have hc := hc hb
  apply kand_nf
  · split
    · apply hc
      obtain ⟨x, l, e⟩ := List.exists_cons_of_ne_nil hk.1
      exact ⟨x, by simp [e], rfl⟩
    · apply kall_nf
      intro a ha'
      obtain ⟨kq, hkq, rfl⟩ := List.mem_map.1 ha'
      obtain ⟨h1, h2⟩ := selecting_mem.1 hkq
      apply hc
      have h3 := ha kq h1
      rcases hvo : valueOf kvs kq.1 with _ | v
      · rw [hvo] at h3
        cases hcm : kq.2.cmp <;> simp [valueHolds, hcm] at h3 h2
      · rw [hvo] at h3
        exact ⟨(kq.1, v), valueOf_mem hvo, covers_mem h1 (holds_selects (hv.2.1 kq h1) h2 h3)⟩
  · split
    · simp
    · next hne =>
      obtain ⟨kq, l, e⟩ := List.exists_cons_of_ne_nil (by simpa using hne : excluding sel ≠ [])
      obtain ⟨h1, h2⟩ := excluding_mem.1 (show kq ∈ excluding sel by simp [e])
      intro hf
      have : kall ((excluding sel).map (fun kq => S ([], some kq.1))) = some true := by
        revert hf
        rcases kall ((excluding sel).map (fun kq => S ([], some kq.1))) with _ | _ | _ <;> simp
      have := kall_true this (S ([], some kq.1)) (List.mem_map.2 ⟨kq, by simp [e], rfl⟩)
      obtain ⟨x, hx, hcx⟩ := hs _ this
      obtain ⟨hx1, hx2⟩ := covers_of hv.1 h1 hcx
      have h3 := ha kq h1
      rw [← hx1, valueOf_of_mem hk.2 hx] at h3
      simp only [valueHolds, h2] at h3
      rw [h2, treeSelects_ne (hv.2.1 kq h1).1] at hx2
      simp [hx2] at h3

theorem selAt_and {sel or and nl i q path} (h : and[i]? = some q) : selAt (0 :: i :: path) (.mk sel or and nl) = selAt path q := by
  simp [selAt, h]
theorem selAt_or {sel or and nl i q path} (h : or[i]? = some q) : selAt (1 :: i :: path) (.mk sel or and nl) = selAt path q := by
  simp [selAt, h]

mutual
theorem evalQ_nf {kvs : KVs Key} (hk : ValidKVs kvs) : ∀ (q : Query Key) (S : Leaf → Option Bool), everywhere (fun s => ValidSel s ∧ s.ids = []) Asks q → Asks q →
    Complete S kvs q → Sound S kvs q → queryHolds (fun _ => true) kvs q = true → evalQ S q ≠ some false
  | .mk sel or and nl, S, he, ha, hc, hs, hh => by
    simp only [everywhere] at he
    simp only [queryHolds, Bool.or_eq_true, Bool.and_eq_true] at hh
    unfold evalQ
    have left : sel.isSome = true ∨ and.isEmpty = false → (Option.all (fun s => true && selHolds s kvs) sel = true) → allHold (fun _ => true) kvs and = true →
        kor (if (sel.isSome || !and.isEmpty) = true then kand (evalHead S sel) (evalAll (below S 0) and) else some false) (evalAny (below S 1) or) ≠ some false := by
      intro h1 h2 h3
      apply kor_nf_left
      rw [if_pos (by simpa using h1)]
      apply kand_nf
      · cases sel with
        | none => simp [evalHead]
        | some s =>
          exact evalSel_nf hk (he.1 s rfl).1 (fun hb => hc [] s rfl hb) (fun key hkey => (hs [] s key rfl hkey).2) (by simpa using h2)
      · exact evalAll_nf hk and (below S 0) he.2.2 (fun i q hq path s' hsel => hc (0 :: i :: path) s' (by rw [selAt_and hq]; exact hsel))
          (fun i q hq path s' key hsel => hs (0 :: i :: path) s' key (by rw [selAt_and hq]; exact hsel)) h3
    rcases hh with ⟨⟨h1, h2⟩, h3⟩ | h
    · have h1' : sel.isSome = true ∨ and.isEmpty = false := by
        rcases h1 with (h1 | h1) | h1
        · exact .inl h1
        · exact .inr (by simpa using h1)
        · simp only [Asks] at ha
          rcases ha with ha | ha | ha
          · exact .inl ha
          · exact absurd (by simpa using h1) ha
          · exact .inr (by simpa using ha)
      exact left h1' h2 h3
    · apply kor_nf_right
      exact evalAny_nf hk or (below S 1) he.2.1 (fun i q hq path s' hsel => hc (1 :: i :: path) s' (by rw [selAt_or hq]; exact hsel))
          (fun i q hq path s' key hsel => hs (1 :: i :: path) s' key (by rw [selAt_or hq]; exact hsel)) h
theorem evalAll_nf {kvs : KVs Key} (hk : ValidKVs kvs) : ∀ (qs : List (Query Key)) (S : Nat → Leaf → Option Bool),
    everywhereL (fun s => ValidSel s ∧ s.ids = []) Asks qs → (∀ (i : Nat) q, qs[i]? = some q → Complete (S i) kvs q) → (∀ (i : Nat) q, qs[i]? = some q → Sound (S i) kvs q) →
    allHold (fun _ => true) kvs qs = true → evalAll S qs ≠ some false
  | [], S, _, _, _, _ => by simp [evalAll]
  | q :: qs, S, he, hc, hs, hh => by
    simp only [everywhereL] at he
    simp only [allHold, Bool.and_eq_true] at hh
    unfold evalAll
    exact kand_nf (evalQ_nf hk q (S 0) he.2.1 he.1 (hc 0 q rfl) (hs 0 q rfl) hh.1)
      (evalAll_nf hk qs (fun i => S (i + 1)) he.2.2 (fun i q' hq => hc (i + 1) q' hq) (fun i q' hq => hs (i + 1) q' hq) hh.2)
theorem evalAny_nf {kvs : KVs Key} (hk : ValidKVs kvs) : ∀ (qs : List (Query Key)) (S : Nat → Leaf → Option Bool),
    everywhereL (fun s => ValidSel s ∧ s.ids = []) Asks qs → (∀ (i : Nat) q, qs[i]? = some q → Complete (S i) kvs q) → (∀ (i : Nat) q, qs[i]? = some q → Sound (S i) kvs q) →
    anyHolds (fun _ => true) kvs qs = true → evalAny S qs ≠ some false
  | [], S, _, _, _, hh => by simp [anyHolds] at hh
  | q :: qs, S, he, hc, hs, hh => by
    simp only [everywhereL] at he
    simp only [anyHolds, Bool.or_eq_true] at hh
    unfold evalAny
    rcases hh with hh | hh
    · exact kor_nf_left (evalQ_nf hk q (S 0) he.2.1 he.1 (hc 0 q rfl) (hs 0 q rfl) hh)
    · exact kor_nf_right (evalAny_nf hk qs (fun i => S (i + 1)) he.2.2 (fun i q' hq => hc (i + 1) q' hq) (fun i q' hq => hs (i + 1) q' hq) hh)
end

theorem evalSel_found {S : Leaf → Option Bool} {sel : Selection Key} (h : evalSel S sel = some true) : ∃ key, S ([], key) = some true := by
  have := (kand_true h).1
  split at this
  · exact ⟨none, this⟩
  · next hne =>
    obtain ⟨kq, l, e⟩ := List.exists_cons_of_ne_nil (by simpa using hne : selecting sel ≠ [])
    exact ⟨some kq.1, kall_true this _ (List.mem_map.2 ⟨kq, by simp [e], rfl⟩)⟩

mutual
theorem evalQ_found {P : Selection Key → Prop} : ∀ (q : Query Key) (S : Leaf → Option Bool), everywhere P Asks q → Asks q → evalQ S q = some true →
    ∃ path sel key, selAt path q = some sel ∧ S (path, key) = some true
  | .mk sel or and nl, S, he, ha, h => by
    simp only [everywhere] at he
    unfold evalQ at h
    rcases kor_true h with h | h
    · split at h
      · next hc =>
        cases hs : sel with
        | some s =>
          subst hs
          obtain ⟨key, hkey⟩ := evalSel_found (kand_true h).1
          exact ⟨[], s, key, rfl, hkey⟩
        | none =>
          have hne : and ≠ [] := by subst hs; simpa using hc
          obtain ⟨i, q, path, s, key, hq, h1, h2⟩ := evalAll_found and (below S 0) he.2.2 hne (kand_true h).2
          exact ⟨0 :: i :: path, s, key, by rw [selAt_and hq]; exact h1, h2⟩
      · simp at h
    · obtain ⟨i, q, path, s, key, hq, h1, h2⟩ := evalAny_found or (below S 1) he.2.1 h
      exact ⟨1 :: i :: path, s, key, by rw [selAt_or hq]; exact h1, h2⟩
theorem evalAll_found {P : Selection Key → Prop} : ∀ (qs : List (Query Key)) (S : Nat → Leaf → Option Bool), everywhereL P Asks qs → qs ≠ [] → evalAll S qs = some true →
    ∃ i q path sel key, qs[i]? = some q ∧ selAt path q = some sel ∧ S i (path, key) = some true
  | [], S, _, h, _ => absurd rfl h
  | q :: qs, S, he, _, h => by
    simp only [everywhereL] at he
    unfold evalAll at h
    obtain ⟨path, sel, key, h1, h2⟩ := evalQ_found q (S 0) he.2.1 he.1 (kand_true h).1
    exact ⟨0, q, path, sel, key, rfl, h1, h2⟩
theorem evalAny_found {P : Selection Key → Prop} : ∀ (qs : List (Query Key)) (S : Nat → Leaf → Option Bool), everywhereL P Asks qs → evalAny S qs = some true →
    ∃ i q path sel key, qs[i]? = some q ∧ selAt path q = some sel ∧ S i (path, key) = some true
  | [], S, _, h => by simp [evalAny] at h
  | q :: qs, S, he, h => by
    simp only [everywhereL] at he
    unfold evalAny at h
    rcases kor_true h with h | h
    · obtain ⟨path, sel, key, h1, h2⟩ := evalQ_found q (S 0) he.2.1 he.1 h
      exact ⟨0, q, path, sel, key, rfl, h1, h2⟩
    · obtain ⟨i, q', path, sel, key, h0, h1, h2⟩ := evalAny_found qs (fun i => S (i + 1)) he.2.2 h
      exact ⟨i + 1, q', path, sel, key, h0, h1, h2⟩
end

theorem evalSel_true {S : Leaf → Option Bool} {kvs : KVs Key} {sel : Selection Key} (hk : ValidKVs kvs) (hv : ValidSel sel) (hp : SelPlain sel)
    (hs : ∀ key, S ([], key) = some true → inBounds sel.min sel.max kvs.length = true ∧ ∃ x ∈ kvs, covers sel key x.1 x.2 = true)
    (h : evalSel S sel = some true) : selHolds sel kvs = true := by
  obtain ⟨key, hkey⟩ := evalSel_found h
  simp only [selHolds, Bool.and_eq_true, List.all_eq_true, ← inBounds_eq]
  refine ⟨(hs key hkey).1, fun kq hkq => ?_⟩
  have hne := (hp kq hkq).1
  have hm : kq ∈ selecting sel := selecting_mem.2 ⟨hkq, hne⟩
  have h1 := (kand_true h).1
  rw [if_neg (by simp; intro e; rw [e] at hm; simp at hm)] at h1
  have h2 := kall_true h1 _ (List.mem_map.2 ⟨kq, hm, rfl⟩)
  obtain ⟨_, x, hx, hc⟩ := hs _ h2
  obtain ⟨h3, h4⟩ := covers_of hv.1 hkq hc
  rw [← h3, valueOf_of_mem hk.2 hx]
  have := treeSelects_holds (hv.2.1 kq hkq) (hp kq hkq).2 x.2
  rw [if_neg hne] at this
  rw [← this]; exact h4

mutual
theorem evalQ_true {kvs : KVs Key} (hk : ValidKVs kvs) : ∀ (q : Query Key) (S : Leaf → Option Bool), everywhere (fun s => ValidSel s ∧ SelPlain s) Asks q →
    Sound S kvs q → evalQ S q = some true → queryHolds (fun _ => true) kvs q = true
  | .mk sel or and nl, S, he, hs, h => by
    simp only [everywhere] at he
    unfold evalQ at h
    simp only [queryHolds, Bool.or_eq_true, Bool.and_eq_true]
    rcases kor_true h with h | h
    · left
      split at h
      · next hc =>
        refine ⟨⟨.inl (by simpa using hc), ?_⟩, ?_⟩
        · cases sel with
          | none => rfl
          | some s =>
            have := evalSel_true hk (he.1 s rfl).1 (he.1 s rfl).2 (fun key hkey => hs [] s key rfl hkey) (kand_true h).1
            simpa using this
        · exact evalAll_true hk and (below S 0) he.2.2 (fun i q hq path s' key hsel => hs (0 :: i :: path) s' key (by rw [selAt_and hq]; exact hsel)) (kand_true h).2
      · simp at h
    · right
      exact evalAny_true hk or (below S 1) he.2.1 (fun i q hq path s' key hsel => hs (1 :: i :: path) s' key (by rw [selAt_or hq]; exact hsel)) h
theorem evalAll_true {kvs : KVs Key} (hk : ValidKVs kvs) : ∀ (qs : List (Query Key)) (S : Nat → Leaf → Option Bool),
    everywhereL (fun s => ValidSel s ∧ SelPlain s) Asks qs → (∀ (i : Nat) q, qs[i]? = some q → Sound (S i) kvs q) →
    evalAll S qs = some true → allHold (fun _ => true) kvs qs = true
  | [], _, _, _, _ => rfl
  | q :: qs, S, he, hs, h => by
    simp only [everywhereL] at he
    unfold evalAll at h
    simp only [allHold, Bool.and_eq_true]
    exact ⟨evalQ_true hk q (S 0) he.2.1 (hs 0 q rfl) (kand_true h).1, evalAll_true hk qs (fun i => S (i + 1)) he.2.2 (fun i q' hq => hs (i + 1) q' hq) (kand_true h).2⟩
theorem evalAny_true {kvs : KVs Key} (hk : ValidKVs kvs) : ∀ (qs : List (Query Key)) (S : Nat → Leaf → Option Bool),
    everywhereL (fun s => ValidSel s ∧ SelPlain s) Asks qs → (∀ (i : Nat) q, qs[i]? = some q → Sound (S i) kvs q) →
    evalAny S qs = some true → anyHolds (fun _ => true) kvs qs = true
  | [], _, _, _, h => by simp [evalAny] at h
  | q :: qs, S, he, hs, h => by
    simp only [everywhereL] at he
    unfold evalAny at h
    simp only [anyHolds, Bool.or_eq_true]
    rcases kor_true h with h | h
    · exact .inl (evalQ_true hk q (S 0) he.2.1 (hs 0 q rfl) h)
    · exact .inr (evalAny_true hk qs (fun i => S (i + 1)) he.2.2 (fun i q' hq => hs (i + 1) q' hq) h)
end

/-! ### A query that selects a channel matches it -/

mutual
theorem matchTags_of_holds {kvs : KVs Key} {P : Query Key → Prop} : ∀ (q : Query Key), everywhere (fun s => ValidSel s ∧ s.ids = []) P q →
    queryHolds (fun _ => true) kvs q = true → Query.matchTags kvs q = true
  | .mk sel or and nl, he, hh => by
    simp only [everywhere] at he
    simp only [queryHolds, Bool.or_eq_true, Bool.and_eq_true] at hh
    simp only [Query.matchTags, Bool.or_eq_true, Bool.and_eq_true]
    rcases hh with ⟨⟨h1, h2⟩, h3⟩ | h
    · refine .inl ⟨?_, matchAll_of_hold and he.2.2 h3⟩
      cases sel with
      | none => rfl
      | some s => simpa [matchKeyValues_holds (he.1 s rfl).1] using h2
    · exact .inr (matchAny_of_holds or he.2.1 h)
theorem matchAll_of_hold {kvs : KVs Key} {P : Query Key → Prop} : ∀ (qs : List (Query Key)), everywhereL (fun s => ValidSel s ∧ s.ids = []) P qs →
    allHold (fun _ => true) kvs qs = true → Query.matchAll kvs qs = true
  | [], _, _ => rfl
  | q :: qs, he, hh => by
    simp only [everywhereL] at he
    simp only [allHold, Bool.and_eq_true] at hh
    simp only [Query.matchAll, Bool.and_eq_true]
    exact ⟨matchTags_of_holds q he.2.1 hh.1, matchAll_of_hold qs he.2.2 hh.2⟩
theorem matchAny_of_holds {kvs : KVs Key} {P : Query Key → Prop} : ∀ (qs : List (Query Key)), everywhereL (fun s => ValidSel s ∧ s.ids = []) P qs →
    anyHolds (fun _ => true) kvs qs = true → Query.matchAny kvs qs = true
  | [], _, hh => by simp [anyHolds] at hh
  | q :: qs, he, hh => by
    simp only [everywhereL] at he
    simp only [anyHolds, Bool.or_eq_true] at hh
    simp only [Query.matchAny, Bool.or_eq_true]
    exact hh.imp (matchTags_of_holds q he.2.1) (matchAny_of_holds qs he.2.2)
end

/-! ### The invariant -/

/-- What holds of a client, given the creations. -/
structure CInv (ps : List Prod) (k : Cons) : Prop where
  /-- only a registered client searches -/
  reg : ∀ l sc, k.scan l = some sc → k.registered = true
  /-- searches find only inserted channels with a covered key-value -/
  sound : ∀ l sc, k.scan l = some sc → ∀ j, j ∈ sc.seen → ∃ p sel, ps[j]? = some p ∧ selAt l.1 k.query = some sel ∧
    2 * p.kvs.length + 2 ≤ p.pc ∧ inBounds sel.min sel.max p.kvs.length = true ∧ ∃ x ∈ p.kvs, covers sel l.2 x.1 x.2 = true
  /-- a channel announced before the client registered is found by its searches -/
  compl : k.registered = true → ∀ (j : Nat) p, ps[j]? = some p → p.announced = true → Query.matchTags p.kvs k.query = true → j ∈ k.offered ∨
    ∀ l sc sel, k.scan l = some sc → selAt l.1 k.query = some sel → ∀ x ∈ p.kvs, covers sel l.2 x.1 x.2 = true →
      x ∈ sc.existing ∧ ((∃ m ∈ sc.visited, sameNode x m = true) → j ∈ sc.seen ∨ p.gone = true ∨ inBounds sel.min sel.max p.kvs.length = false) ∧
      (sc.ended = true → ∃ m ∈ sc.visited, sameNode x m = true)
  /-- ids looked up were offered unless the channel is gone -/
  look : Proper k.query → ∀ (j : Nat), j ∈ k.looked → j ∈ k.offered ∨ ∃ p, ps[j]? = some p ∧ p.gone = true
  /-- a waiting client is registered and was offered all it wants -/
  wreg : k.waiting = true → k.registered = true
  wait : Proper k.query → k.waiting = true → ∀ (j : Nat) p, ps[j]? = some p → p.announced = true → wants k.query p.kvs = true → j ∈ k.offered ∨ p.gone = true

/-- The key-values of channels are valid. -/
def PInv (ps : List Prod) : Prop := ∀ (j : Nat) p, ps[j]? = some p → ValidKVs p.kvs

/-- How the creations evolve; `new j`: creation `j` is announced now. -/
structure Ext (ps ps' : List Prod) (new : Nat → Prop) : Prop where
  fwd : ∀ (j : Nat) p, ps[j]? = some p → ∃ p', ps'[j]? = some p' ∧ p'.kvs = p.kvs ∧ p.pc ≤ p'.pc ∧ (p.gone = true → p'.gone = true)
  bwd : ∀ (j : Nat) p', ps'[j]? = some p' → p'.announced = true → new j ∨ ∃ p, ps[j]? = some p ∧ p.announced = true

theorem wants_matches {q : Query Key} (hq : Proper q) {kvs : KVs Key} (h : wants q kvs = true) : Query.matchTags kvs q = true :=
  matchTags_of_holds q hq.1 h

theorem CInv.ext {ps ps' : List Prod} {new : Nat → Prop} {k : Cons} (h : CInv ps k) (he : Ext ps ps' new) {k' : Cons}
    (hk : ∃ o, k' = { k with offered := k.offered ++ o })
    (hn : ∀ (j : Nat) p', new j → ps'[j]? = some p' → k.registered = true → Query.matchTags p'.kvs k.query = true → j ∈ k'.offered) : CInv ps' k' := by
  obtain ⟨o, rfl⟩ := hk
  have back : ∀ (j : Nat) p', ps'[j]? = some p' → p'.announced = true → ¬ new j → ∃ p, ps[j]? = some p ∧ p.announced = true ∧ p'.kvs = p.kvs ∧ (p.gone = true → p'.gone = true) := by
    intro j p' h1 h2 h3
    obtain ⟨p, h4, h5⟩ := (he.bwd j p' h1 h2).resolve_left h3
    obtain ⟨p'', h6, h7, _, h8⟩ := he.fwd j p h4
    rw [h1] at h6; cases h6
    exact ⟨p, h4, h5, h7, h8⟩
  refine ⟨h.reg, ?_, ?_, ?_, h.wreg, ?_⟩
  · intro l sc hsc j hj
    obtain ⟨p, sel, h1, h2, h3, h4, h5⟩ := h.sound l sc hsc j hj
    obtain ⟨p', g1, g2, g3, _⟩ := he.fwd j p h1
    exact ⟨p', sel, g1, h2, by rw [g2]; omega, by rw [g2]; exact h4, by rw [g2]; exact h5⟩
  · intro hr j p' h1 h2 h3
    by_cases hnew : new j
    · exact .inl (hn j p' hnew h1 hr h3)
    · obtain ⟨p, g1, g2, g3, g4⟩ := back j p' h1 h2 hnew
      rw [g3] at h3
      rcases h.compl hr j p g1 g2 h3 with hc | hc
      · exact .inl (List.mem_append_left _ hc)
      · right
        intro l sc sel h4 h5 x hx hcv
        rw [g3] at hx
        obtain ⟨c1, c2, c3⟩ := hc l sc sel h4 h5 x hx hcv
        refine ⟨c1, fun hm => ?_, c3⟩
        rcases c2 hm with c | c | c
        · exact .inl c
        · exact .inr (.inl (g4 c))
        · exact .inr (.inr (by rw [g3]; exact c))
  · intro hq j hj
    rcases h.look hq j hj with c | ⟨p, c1, c2⟩
    · exact .inl (List.mem_append_left _ c)
    · obtain ⟨p', g1, _, _, g2⟩ := he.fwd j p c1
      exact .inr ⟨p', g1, g2 c2⟩
  · intro hq hw j p' h1 h2 h3
    by_cases hnew : new j
    · exact .inl (hn j p' hnew h1 (h.wreg hw) (wants_matches hq h3))
    · obtain ⟨p, g1, g2, g3, g4⟩ := back j p' h1 h2 hnew
      rw [g3] at h3
      rcases h.wait hq hw j p g1 g2 h3 with c | c
      · exact .inl (List.mem_append_left _ c)
      · exact .inr (g4 c)

theorem CInv.ext' {ps ps' : List Prod} {k : Cons} (h : CInv ps k) (he : Ext ps ps' (fun _ => False)) : CInv ps' k :=
  h.ext he ⟨[], by simp⟩ (fun _ _ f => f.elim)

/-! ### A client's own steps -/

theorem lt_of_get {A : Type} {l : List A} {j : Nat} {a : A} (h : l[j]? = some a) : j < l.length := by
  apply Classical.byContradiction; intro hn
  rw [List.getElem?_eq_none (by omega)] at h; cases h

theorem mem_nodes {s : St} {j : Nat} {p : Prod} (hp : s.prods[j]? = some p) (ha : p.announced = true) {x} (hx : x ∈ p.kvs) : x ∈ nodes s := by
  simp only [nodes, List.mem_flatMap]
  refine ⟨p, List.mem_of_getElem? hp, ?_⟩
  simp only [Prod.announced, decide_eq_true_eq] at ha
  rw [List.take_of_length_le (by omega)]
  exact hx

/-- A node that is not locked belongs to no channel between its announcement and its insertion. -/
theorem unlocked {s : St} {n : GoString × Key} (hl : locked s n = false) {j : Nat} {p : Prod} (hp : s.prods[j]? = some p) (ha : p.announced = true)
    {x} (hx : x ∈ p.kvs) (hs : sameNode x n = true) : 2 * p.kvs.length + 2 ≤ p.pc := by
  obtain ⟨i, hi, hxi⟩ := List.getElem_of_mem hx
  simp only [Prod.announced, decide_eq_true_eq] at ha
  apply Classical.byContradiction
  intro hc
  have : locked s n = true := by
    simp only [locked, List.any_eq_true, List.mem_range, Bool.and_eq_true]
    refine ⟨p, List.mem_of_getElem? hp, i, hi, ?_, ?_⟩
    · simp only [Prod.holds, Bool.and_eq_true, decide_eq_true_eq]; omega
    · rw [List.getElem?_eq_getElem hi, hxi]; exact hs
  rw [hl] at this; cases this

theorem mem_idsAt {s : St} {sel : Selection Key} {n : GoString × Key} {j : Nat} : j ∈ idsAt s sel n ↔
    ∃ p, s.prods[j]? = some p ∧ p.listed = true ∧ inBounds sel.min sel.max p.kvs.length = true ∧ ∃ x ∈ p.kvs, sameNode x n = true := by
  simp only [idsAt, List.mem_filter, List.mem_range, Option.any_eq_true, Bool.and_eq_true, List.any_eq_true, and_assoc]
  constructor
  · rintro ⟨_, p, h1, h2⟩; exact ⟨p, h1, h2⟩
  · rintro ⟨p, h1, h2⟩
    exact ⟨lt_of_get h1, p, h1, h2⟩

theorem mem_inTree {s : St} {j : Nat} : j ∈ inTree s ↔ ∃ p, s.prods[j]? = some p ∧ p.inserted = true := by
  simp only [inTree, List.mem_filter, List.mem_range, Option.any_eq_true]
  constructor
  · rintro ⟨_, p, h1, h2⟩; exact ⟨p, h1, h2⟩
  · rintro ⟨p, h1, h2⟩
    exact ⟨lt_of_get h1, p, h1, h2⟩

theorem found_true {k : Cons} {j : Nat} {l : Leaf} (h : k.found j l = some true) : ∃ sc, k.scan l = some sc ∧ sc.ended = true ∧ j ∈ sc.seen := by
  unfold Cons.found at h
  split at h
  · next sc hsc =>
    split at h
    · next he => exact ⟨sc, hsc, he, by simpa using h⟩
    · cases h
  · cases h

theorem found_false {k : Cons} {j : Nat} {l : Leaf} (h : k.found j l = some false) : ∃ sc, k.scan l = some sc ∧ sc.ended = true ∧ j ∉ sc.seen := by
  unfold Cons.found at h
  split at h
  · next sc hsc =>
    split at h
    · next he => exact ⟨sc, hsc, he, by simpa using h⟩
    · cases h
  · cases h

theorem CInv.found_sound {ps : List Prod} {k : Cons} (h : CInv ps k) {j : Nat} {p : Prod} (hp : ps[j]? = some p) : Sound (k.found j) p.kvs k.query := by
  intro path sel key hsel hf
  obtain ⟨sc, h1, _, h2⟩ := found_true hf
  obtain ⟨p', sel', g1, g2, _, g3, g4⟩ := h.sound _ sc h1 j h2
  rw [hp] at g1; cases g1
  rw [hsel] at g2; cases g2
  exact ⟨g3, g4⟩

/-- At the end of the search, every channel wanted was offered or is gone. -/
theorem over_offered {s : St} {k : Cons} (h : CInv s.prods k) (hp : PInv s.prods) (hr : k.registered = true) (hq : Proper k.query)
    (ho : k.over s = true) {j : Nat} {p : Prod} (hj : s.prods[j]? = some p) (ha : p.announced = true) (hw : wants k.query p.kvs = true) :
    j ∈ k.offered ∨ p.gone = true := by
  apply Classical.byContradiction
  intro hne
  simp only [not_or] at hne
  have hcompl := (h.compl hr j p hj ha (wants_matches hq hw)).resolve_left hne.1
  have hc : Complete (k.found j) p.kvs k.query := by
    intro path sel hsel hb key ⟨x, hx, hcv⟩ hf
    obtain ⟨sc, h1, h2, h3⟩ := found_false hf
    obtain ⟨_, c2, c3⟩ := hcompl (path, key) sc sel h1 hsel x hx hcv
    rcases c2 (c3 h2) with c | c | c
    · exact h3 c
    · exact hne.2 c
    · rw [hb] at c; cases c
  have hnf := evalQ_nf (hp j p hj) k.query (k.found j) hq.1 hq.2 hc (h.found_sound hj) hw
  have hemp : isEmpty k.query = false := by
    have := hq.2
    revert this
    cases k.query with
    | mk sel or and nl => cases sel <;> cases or <;> cases and <;> cases nl <;> simp [Asks, isEmpty]
  simp only [Cons.over, hemp, Bool.false_eq_true, if_false, List.all_eq_true, List.mem_range] at ho
  have := ho j (lt_of_get hj)
  split at this
  · rcases h.look hq j (by simpa using this) with c | ⟨p', c1, c2⟩
    · exact hne.1 c
    · rw [hj] at c1; cases c1; exact hne.2 c2
  · next hf => exact hnf hf
  · cases this

theorem CInv.setScan {ps : List Prod} {k : Cons} (h : CInv ps k) {l : Leaf} {sc : Scan} (hr : k.registered = true)
    (hs : ∀ j, j ∈ sc.seen → ∃ p sel, ps[j]? = some p ∧ selAt l.1 k.query = some sel ∧
      2 * p.kvs.length + 2 ≤ p.pc ∧ inBounds sel.min sel.max p.kvs.length = true ∧ ∃ x ∈ p.kvs, covers sel l.2 x.1 x.2 = true)
    (hc : ∀ (j : Nat) p, ps[j]? = some p → p.announced = true → Query.matchTags p.kvs k.query = true → j ∉ k.offered → ∀ sel, selAt l.1 k.query = some sel → ∀ x ∈ p.kvs, covers sel l.2 x.1 x.2 = true →
      x ∈ sc.existing ∧ ((∃ m ∈ sc.visited, sameNode x m = true) → j ∈ sc.seen ∨ p.gone = true ∨ inBounds sel.min sel.max p.kvs.length = false) ∧
      (sc.ended = true → ∃ m ∈ sc.visited, sameNode x m = true)) : CInv ps (k.setScan l sc) := by
  refine ⟨fun _ _ _ => hr, ?_, ?_, h.look, h.wreg, h.wait⟩
  · intro l' sc' hsc'
    simp only [Cons.setScan] at hsc'
    split at hsc'
    · next e => subst e; cases hsc'; exact hs
    · exact h.sound l' sc' hsc'
  · intro _ j p hp ha hm
    by_cases ho : j ∈ k.offered
    · exact .inl ho
    · right
      have hold := (h.compl hr j p hp ha hm).resolve_left ho
      intro l' sc' sel hsc' hsel
      simp only [Cons.setScan] at hsc'
      split at hsc'
      · next e => subst e; cases hsc'; exact hc j p hp ha hm ho sel hsel
      · exact hold l' sc' sel hsc' hsel

theorem CInv.step {s : St} {k k' : Cons} (h : CInv s.prods k) (hp : PInv s.prods) {l : Label} (hs : consStep s k l = some k') : CInv s.prods k' := by
  cases l with
  | arriveItem | create | delete | arriveClient => simp [consStep] at hs
  | register c =>
    simp only [consStep, Option.some.injEq] at hs; subst hs
    refine ⟨fun _ _ _ => rfl, h.sound, ?_, h.look, fun _ => rfl, h.wait⟩
    intro _ j p h1 h2 h3
    by_cases hr : k.registered = true
    · exact h.compl hr j p h1 h2 h3
    · right; intro l sc _ hsc
      exact absurd (h.reg l sc hsc) hr
  | start c l =>
    simp only [consStep] at hs
    split at hs <;> simp only [Option.some.injEq, reduceCtorEq] at hs
    subst hs
    next hc =>
    simp only [Bool.and_eq_true] at hc
    refine h.setScan hc.1.1 (by simp) ?_
    intro j p hj ha _ _ sel _ x hx _
    exact ⟨mem_nodes hj ha hx, by simp, by simp⟩
  | visit c l n =>
    simp only [consStep] at hs
    split at hs <;> try simp only [reduceCtorEq] at hs
    next sc sel hsc hsel =>
    split at hs <;> simp only [Option.some.injEq, reduceCtorEq] at hs
    subst hs
    next hc =>
    simp only [Bool.and_eq_true, Bool.not_eq_true'] at hc
    obtain ⟨⟨hend, hcov⟩, hlock⟩ := hc
    have hr := h.reg l sc hsc
    refine h.setScan hr ?_ ?_
    · intro j hj
      rcases List.mem_append.1 hj with hj | hj
      · exact h.sound l sc hsc j hj
      · obtain ⟨p, h1, h2, h3, x, h4, h5⟩ := mem_idsAt.1 hj
        refine ⟨p, sel, h1, hsel, unlocked hlock h1 ?_ h4 h5, h3, x, h4, ?_⟩
        · simp only [Prod.listed, Bool.and_eq_true] at h2; exact h2.1
        · rw [← covers_congr h5]; exact hcov
    · intro j p hj ha hm ho sel' hsel' x hx hcx
      rw [hsel] at hsel'; cases hsel'
      obtain ⟨c1, c2, c3⟩ := (h.compl hr j p hj ha hm).resolve_left ho l sc sel hsc hsel x hx hcx
      refine ⟨c1, ?_, ?_⟩
      · rintro ⟨m, hm1, hm2⟩
        rcases List.mem_append.1 hm1 with hm1 | hm1
        · rcases c2 ⟨m, hm1, hm2⟩ with c | c
          · exact .inl (List.mem_append_left _ c)
          · exact .inr c
        · simp only [List.mem_singleton] at hm1; subst hm1
          by_cases hg : p.gone = true
          · exact .inr (.inl hg)
          · cases hb : inBounds sel.min sel.max p.kvs.length with
            | false => exact .inr (.inr rfl)
            | true =>
              refine .inl (List.mem_append_right _ (mem_idsAt.2 ⟨p, hj, ?_, hb, x, hx, hm2⟩))
              simp [Prod.listed, ha, hg]
      · intro he
        have := hend.symm.trans he
        cases this
  | finish c l =>
    simp only [consStep] at hs
    split at hs <;> try simp only [reduceCtorEq] at hs
    next sc sel hsc hsel =>
    split at hs <;> simp only [Option.some.injEq, reduceCtorEq] at hs
    subst hs
    next hc =>
    have hr := h.reg l sc hsc
    refine h.setScan hr (h.sound l sc hsc) ?_
    intro j p hj ha hm ho sel' hsel' x hx hcx
    rw [hsel] at hsel'; cases hsel'
    obtain ⟨c1, c2, c3⟩ := (h.compl hr j p hj ha hm).resolve_left ho l sc sel hsc hsel x hx hcx
    refine ⟨c1, c2, fun _ => ?_⟩
    simp only [List.all_eq_true, Bool.or_eq_true, Bool.not_eq_true', List.any_eq_true] at hc
    rcases hc x c1 with c | c
    · rw [hcx] at c; cases c
    · exact c
  | lookup c j =>
    simp only [consStep] at hs
    split at hs <;> simp only [Option.some.injEq, reduceCtorEq] at hs
    subst hs
    next hc =>
    simp only [Bool.and_eq_true, beq_iff_eq] at hc
    obtain ⟨⟨hr, hev⟩, _⟩ := hc
    have hmono : ∀ i, i ∈ k.offered → i ∈ (if (inTree s).contains j = true then k.offered ++ [j] else k.offered) := by
      intro i hi; split
      · exact List.mem_append_left _ hi
      · exact hi
    refine ⟨h.reg, h.sound, ?_, ?_, h.wreg, ?_⟩
    · intro hr' i p hi ha hm
      exact (h.compl hr' i p hi ha hm).imp (hmono i) id
    · intro hq i hi
      rcases List.mem_append.1 hi with hi | hi
      · exact (h.look hq i hi).imp (hmono i) id
      · simp only [List.mem_singleton] at hi; subst hi
        obtain ⟨path, sel, key, h1, h2⟩ := evalQ_found k.query (k.found i) hq.1 hq.2 hev
        obtain ⟨sc, h3, _, h4⟩ := found_true h2
        obtain ⟨p, _, h5, _, h6, _⟩ := h.sound _ sc h3 i h4
        by_cases hg : p.gone = true
        · exact .inr ⟨p, h5, hg⟩
        · left
          have : i ∈ inTree s := mem_inTree.2 ⟨p, h5, by simp [Prod.inserted, h6, hg]⟩
          simp [this]
    · intro hq hw i p hi ha hwa
      exact (h.wait hq hw i p hi ha hwa).imp (hmono i) id
  | iterate c =>
    simp only [consStep] at hs
    split at hs <;> simp only [Option.some.injEq, reduceCtorEq] at hs
    subst hs
    exact ⟨h.reg, h.sound, h.compl, h.look, h.wreg, h.wait⟩
  | pass c j =>
    simp only [consStep] at hs
    split at hs <;> try simp only [reduceCtorEq] at hs
    split at hs <;> simp only [Option.some.injEq, reduceCtorEq] at hs
    subst hs
    exact ⟨h.reg, h.sound, fun hr i p hi ha hm => (h.compl hr i p hi ha hm).imp (List.mem_append_left _) id,
      fun hq i hi => (h.look hq i hi).imp (List.mem_append_left _) id, h.wreg,
      fun hq hw i p hi ha hwa => (h.wait hq hw i p hi ha hwa).imp (List.mem_append_left _) id⟩
  | wait c =>
    simp only [consStep] at hs
    split at hs <;> simp only [Option.some.injEq, reduceCtorEq] at hs
    subst hs
    next hc =>
    simp only [Bool.and_eq_true] at hc
    exact ⟨h.reg, h.sound, h.compl, h.look, fun _ => hc.1, fun hq _ i p hi ha hwa => over_offered h hp hc.1 hq hc.2 hi ha hwa⟩

/-! ### All steps -/

/-- The invariant of the whole state. -/
structure WInv (s : St) : Prop where
  prods : PInv s.prods
  cons : ∀ k ∈ s.cons, CInv s.prods k

theorem Ext.append {ps : List Prod} {p : Prod} (hp : p.announced = false) : Ext ps (ps ++ [p]) (fun _ => False) where
  fwd j q hq := ⟨q, by rw [List.getElem?_append_left (lt_of_get hq)]; exact hq, rfl, Nat.le_refl _, id⟩
  bwd j q hq ha := by
    right
    rcases Nat.lt_trichotomy j ps.length with h | h | h
    · rw [List.getElem?_append_left h] at hq; exact ⟨q, hq, ha⟩
    · subst h; simp at hq; subst hq; rw [hp] at ha; cases ha
    · rw [List.getElem?_eq_none (by simp; omega)] at hq; cases hq

theorem getElem?_modify' {ps : List Prod} {j i : Nat} {f : Prod → Prod} : (ps.modify j f)[i]? = if j = i then ps[i]?.map f else ps[i]? := by
  rw [List.getElem?_modify]; split <;> simp

theorem Ext.modify {ps : List Prod} {j : Nat} {p : Prod} {f : Prod → Prod} {new : Nat → Prop} (hp : ps[j]? = some p) (h1 : (f p).kvs = p.kvs)
    (h2 : p.pc ≤ (f p).pc) (h3 : p.gone = true → (f p).gone = true) (h4 : (f p).announced = true → new j ∨ p.announced = true) : Ext ps (ps.modify j f) new where
  fwd i q hq := by
    rw [getElem?_modify']
    split
    · next e => subst e; rw [hp] at hq; cases hq; exact ⟨f p, by simp [hp], h1, h2, h3⟩
    · exact ⟨q, hq, rfl, Nat.le_refl _, id⟩
  bwd i q hq ha := by
    rw [getElem?_modify'] at hq
    split at hq
    · next e =>
      subst e; rw [hp] at hq; simp at hq; subst hq
      exact (h4 ha).imp id (fun h => ⟨p, hp, h⟩)
    · exact .inr ⟨q, hq, ha⟩

theorem PInv.modify {ps : List Prod} (h : PInv ps) {j : Nat} {f : Prod → Prod} (hf : ∀ p, (f p).kvs = p.kvs) : PInv (ps.modify j f) := by
  intro i q hq
  rw [getElem?_modify'] at hq
  split at hq
  · rcases hi : ps[i]? with _ | p
    · rw [hi] at hq; simp at hq
    · rw [hi] at hq; simp at hq; subst hq; rw [hf]; exact h i p hi
  · exact h i q hq

theorem WInv.createStep {s s' : St} (h : WInv s) {j : Nat} {p : Prod} (hp : s.prods[j]? = some p) (hs : createStep s j p = some s') : WInv s' := by
  simp only [Waiting.createStep] at hs
  have hpi : PInv (s.setProd j (fun p => { p with pc := p.pc + 1 })).prods := h.prods.modify (fun _ => rfl)
  have plain : p.pc ≠ 2 * p.kvs.length → WInv (s.setProd j (fun p => { p with pc := p.pc + 1 })) := by
    intro hne
    refine ⟨hpi, fun k hk => (h.cons k hk).ext' (Ext.modify hp rfl (by simp) id ?_)⟩
    intro ha; right
    simp only [Prod.announced, decide_eq_true_eq] at ha ⊢; omega
  split at hs
  · cases hs
  · split at hs
    · next hc =>
      simp only [Bool.and_eq_true, decide_eq_true_eq] at hc
      split at hs
      · split at hs
        · cases hs
        · cases hs; exact plain (by omega)
      · cases hs
    · split at hs
      · next hpc =>
        cases hs
        refine ⟨hpi, ?_⟩
        intro k' hk'
        simp only [announce, St.setProd, List.mem_map] at hk'
        obtain ⟨k, hk, rfl⟩ := hk'
        refine (h.cons k hk).ext (new := fun i => i = j) (Ext.modify hp rfl (by simp) id (fun _ => .inl rfl)) ?_ ?_
        · split
          · exact ⟨[j], rfl⟩
          · exact ⟨[], by simp⟩
        · rintro i p' rfl hi hr hm
          rw [getElem?_modify', if_pos rfl, hp] at hi
          simp at hi; subst hi
          simp only at hm
          simp [hr, hm]
      · next hne => cases hs; exact plain hne

theorem WInv.step {s s' : St} (h : WInv s) {l : Label} (hv : WaitingSpec.Label.Valid l) (hs : Waiting.step s l = some s') : WInv s' := by
  have client : ∀ {c : Nat} {l : Label} {k : Cons} {k' : Cons}, s.cons[c]? = some k → consStep s k l = some k' → WInv { s with cons := s.cons.set c k' } := by
    intro c l k k' hk hs
    refine ⟨h.prods, ?_⟩
    intro k'' hk''
    rcases List.mem_or_eq_of_mem_set hk'' with hk'' | rfl
    · exact h.cons _ hk''
    · exact (h.cons k (List.mem_of_getElem? hk)).step h.prods hs
  cases l with
  | arriveItem kvs =>
    simp only [Waiting.step, Option.some.injEq] at hs; subst hs
    refine ⟨?_, fun k hk => (h.cons k hk).ext' (Ext.append (by simp [Prod.announced]))⟩
    intro j p hj
    rcases Nat.lt_or_ge j s.prods.length with hl | hl
    · rw [List.getElem?_append_left hl] at hj; exact h.prods j p hj
    · have := List.mem_of_getElem? hj
      rw [List.getElem?_append_right hl] at hj
      have := List.mem_of_getElem? hj
      simp at this; subst this; exact hv
  | create j =>
    simp only [Waiting.step] at hs
    split at hs
    · next p hp => exact h.createStep hp hs
    · cases hs
  | delete j =>
    simp only [Waiting.step] at hs
    split at hs
    · next p hp =>
      split at hs
      · cases hs
        exact ⟨h.prods.modify (fun _ => rfl), fun k hk => (h.cons k hk).ext' (Ext.modify hp rfl (Nat.le_refl _) (fun _ => rfl) (fun ha => .inr ha))⟩
      · cases hs
    · cases hs
  | arriveClient q =>
    simp only [Waiting.step, Option.some.injEq] at hs; subst hs
    refine ⟨h.prods, fun k hk => ?_⟩
    rcases List.mem_append.1 hk with hk | hk
    · exact h.cons k hk
    · simp at hk; subst hk
      exact ⟨by simp, by simp, by simp, by simp, by simp, by simp⟩
  | register c | start c | visit c | finish c | lookup c | iterate c | pass c | wait c =>
    simp only [Waiting.step, Label.client] at hs
    rcases hk : s.cons[c]? with _ | k
    · simp only [hk, reduceCtorEq] at hs
    · simp only [hk, Option.map_eq_some_iff] at hs
      obtain ⟨k', h1, h2⟩ := hs
      subst h2
      exact client hk h1

theorem WInv.run : ∀ (ls : List Label) {s s' : St}, WInv s → (∀ l ∈ ls, WaitingSpec.Label.Valid l) → Waiting.run s ls = some s' → WInv s'
  | [], s, s', h, _, hr => by simp only [Waiting.run, Option.some.injEq] at hr; subst hr; exact h
  | l :: ls, s, s', h, hv, hr => by
    simp only [Waiting.run] at hr
    split at hr
    · cases hr
    · next s1 h1 => exact WInv.run ls (h.step (hv l (by simp)) h1) (fun l' hl' => hv l' (by simp [hl'])) hr

theorem reachable_inv {s : St} (h : Reachable s) : WInv s := by
  obtain ⟨ls, hv, hr⟩ := h
  exact WInv.run ls ⟨fun j p hp => by simp [St.init] at hp, fun k hk => by simp [St.init] at hk⟩ hv hr

/-! ### Only wanted channels are offered -/

/-- What holds of the channels offered to a client. -/
structure OInv (ps : List Prod) (k : Cons) : Prop where
  iter : k.iter.isSome = true → isEmpty k.query = true
  off : Plain k.query → ∀ (j : Nat), j ∈ k.offered → ∃ p, ps[j]? = some p ∧ wants k.query p.kvs = true

theorem plain_matches {q : Query Key} (hq : Plain q) {kvs : KVs Key} (h : Query.matchTags kvs q = true) : wants q kvs = true := by
  rcases hq with hq | ⟨hq, _, hn⟩
  · obtain ⟨sel, or, and, nl⟩ := q
    obtain ⟨rfl, rfl, rfl, rfl⟩ := hq
    rfl
  · rw [wants, ← matchTags_holds q (everywhere_imp (fun _ h => h.1) (fun _ h => h.2) q hq) hn]
    exact h

theorem OInv.ext {ps ps' : List Prod} {new : Nat → Prop} {k : Cons} (h : OInv ps k) (he : Ext ps ps' new) : OInv ps' k := by
  refine ⟨h.iter, fun hq j hj => ?_⟩
  obtain ⟨p, h1, h2⟩ := h.off hq j hj
  obtain ⟨p', g1, g2, _⟩ := he.fwd j p h1
  exact ⟨p', g1, by rw [g2]; exact h2⟩

theorem OInv.step {s : St} {k k' : Cons} (h : OInv s.prods k) (hc : CInv s.prods k) (hp : PInv s.prods) {l : Label} (hs : consStep s k l = some k') : OInv s.prods k' := by
  cases l with
  | arriveItem | create | delete | arriveClient => simp [consStep] at hs
  | register c | start c l =>
    simp only [consStep] at hs
    try split at hs
    all_goals simp only [Option.some.injEq, reduceCtorEq] at hs
    subst hs; exact ⟨h.iter, h.off⟩
  | visit c l n | finish c l =>
    simp only [consStep] at hs
    split at hs <;> try simp only [reduceCtorEq] at hs
    split at hs <;> simp only [Option.some.injEq, reduceCtorEq] at hs
    subst hs; exact ⟨h.iter, h.off⟩
  | lookup c j =>
    simp only [consStep] at hs
    split at hs <;> simp only [Option.some.injEq, reduceCtorEq] at hs
    next hcond =>
    subst hs
    refine ⟨h.iter, fun hq i hi => ?_⟩
    simp only [Bool.and_eq_true, beq_iff_eq, Bool.not_eq_true'] at hcond
    simp only at hi hq ⊢
    split at hi
    · next hin =>
      rcases List.mem_append.1 hi with hi | hi
      · exact h.off hq i hi
      · simp only [List.mem_singleton] at hi; subst hi
        obtain ⟨p, h1, _⟩ := mem_inTree.1 (by simpa using hin)
        refine ⟨p, h1, ?_⟩
        rcases hq with hq | hq
        · exfalso
          have := hcond.2
          revert hq this
          cases k.query with
          | mk sel or and nl => rintro ⟨rfl, rfl, rfl, rfl⟩ h; simp [isEmpty] at h
        · exact evalQ_true (hp i p h1) k.query (k.found i) (everywhere_imp (fun _ h => ⟨h.1, h.2.2⟩) (fun _ h => h.1) _ hq.1) (hc.found_sound h1) hcond.1.2
    · exact h.off hq i hi
  | iterate c =>
    simp only [consStep] at hs
    split at hs <;> simp only [Option.some.injEq, reduceCtorEq] at hs
    next hcond =>
    subst hs
    simp only [Bool.and_eq_true] at hcond
    exact ⟨fun _ => hcond.1.2, h.off⟩
  | pass c j =>
    simp only [consStep] at hs
    split at hs <;> try simp only [reduceCtorEq] at hs
    next hit =>
    split at hs <;> simp only [Option.some.injEq, reduceCtorEq] at hs
    next hin =>
    subst hs
    refine ⟨fun _ => h.iter (by simp [hit]), fun hq i hi => ?_⟩
    rcases List.mem_append.1 hi with hi | hi
    · exact h.off hq i hi
    · simp only [List.mem_singleton] at hi; subst hi
      obtain ⟨p, h1, _⟩ := mem_inTree.1 (by simpa using hin)
      refine ⟨p, h1, ?_⟩
      have := h.iter (by simp [hit])
      revert this
      simp only
      cases k.query with
      | mk sel or and nl => cases sel <;> cases or <;> cases and <;> cases nl <;> simp [isEmpty, wants, queryHolds, allHold]
  | wait c =>
    simp only [consStep] at hs
    split at hs <;> simp only [Option.some.injEq, reduceCtorEq] at hs
    subst hs; exact ⟨h.iter, h.off⟩

/-- Both invariants. -/
structure WInv2 (s : St) : Prop where
  inv : WInv s
  off : ∀ k ∈ s.cons, OInv s.prods k

theorem WInv2.step {s s' : St} (h : WInv2 s) {l : Label} (hv : WaitingSpec.Label.Valid l) (hs : Waiting.step s l = some s') : WInv2 s' := by
  refine ⟨h.inv.step hv hs, ?_⟩
  cases l with
  | arriveItem kvs =>
    simp only [Waiting.step, Option.some.injEq] at hs; subst hs
    exact fun k hk => (h.off k hk).ext (Ext.append (by simp [Prod.announced]))
  | create j =>
    simp only [Waiting.step] at hs
    split at hs
    · next p hp =>
      have hext : Ext s.prods (s.setProd j (fun p => { p with pc := p.pc + 1 })).prods (fun i => i = j) :=
        Ext.modify hp rfl (by simp) id (fun _ => .inl rfl)
      have plain : ∀ k ∈ (s.setProd j (fun p => { p with pc := p.pc + 1 })).cons, OInv (s.setProd j (fun p => { p with pc := p.pc + 1 })).prods k :=
        fun k hk => (h.off k hk).ext hext
      simp only [Waiting.createStep] at hs
      split at hs
      · cases hs
      · split at hs
        · split at hs
          · split at hs
            · cases hs
            · cases hs; exact plain
          · cases hs
        · split at hs
          · cases hs
            intro k' hk'
            simp only [announce, St.setProd, List.mem_map] at hk'
            obtain ⟨k, hk, rfl⟩ := hk'
            have := plain k hk
            split
            · next hm =>
              simp only [Bool.and_eq_true] at hm
              refine ⟨this.iter, fun hq i hi => ?_⟩
              rcases List.mem_append.1 hi with hi | hi
              · exact this.off hq i hi
              · simp only [List.mem_singleton] at hi; subst hi
                refine ⟨{ p with pc := p.pc + 1 }, ?_, plain_matches hq hm.2⟩
                simp only [announce, St.setProd]
                rw [getElem?_modify', if_pos rfl, hp]; rfl
            · exact this
          · cases hs; exact plain
    · cases hs
  | delete j =>
    simp only [Waiting.step] at hs
    split at hs
    · next p hp =>
      split at hs
      · cases hs
        exact fun k hk => (h.off k hk).ext (new := fun _ => False) (Ext.modify hp rfl (Nat.le_refl _) (fun _ => rfl) (fun ha => .inr ha))
      · cases hs
    · cases hs
  | arriveClient q =>
    simp only [Waiting.step, Option.some.injEq] at hs; subst hs
    intro k hk
    rcases List.mem_append.1 hk with hk | hk
    · exact h.off k hk
    · simp at hk; subst hk
      exact ⟨by simp, by simp⟩
  | register c | start c | visit c | finish c | lookup c | iterate c | pass c | wait c =>
    simp only [Waiting.step, Label.client] at hs
    rcases hk : s.cons[c]? with _ | k
    · simp only [hk, reduceCtorEq] at hs
    · simp only [hk, Option.map_eq_some_iff] at hs
      obtain ⟨k', h1, h2⟩ := hs
      subst h2
      intro k'' hk''
      rcases List.mem_or_eq_of_mem_set hk'' with hk'' | rfl
      · exact h.off _ hk''
      · exact (h.off k (List.mem_of_getElem? hk)).step (h.inv.cons k (List.mem_of_getElem? hk)) h.inv.prods h1

theorem WInv2.run : ∀ (ls : List Label) {s s' : St}, WInv2 s → (∀ l ∈ ls, WaitingSpec.Label.Valid l) → Waiting.run s ls = some s' → WInv2 s'
  | [], s, s', h, _, hr => by simp only [Waiting.run, Option.some.injEq] at hr; subst hr; exact h
  | l :: ls, s, s', h, hv, hr => by
    simp only [Waiting.run] at hr
    split at hr
    · cases hr
    · next s1 h1 => exact WInv2.run ls (h.step (hv l (by simp)) h1) (fun l' hl' => hv l' (by simp [hl'])) hr

theorem reachable_inv2 {s : St} (h : Reachable s) : WInv2 s := by
  obtain ⟨ls, hv, hr⟩ := h
  exact WInv2.run ls ⟨⟨fun j p hp => by simp [St.init] at hp, fun k hk => by simp [St.init] at hk⟩, fun k hk => by simp [St.init] at hk⟩ hv hr

/-! ### A client keeps its query -/

theorem consStep_query {s : St} {k k' : Cons} {l : Label} (h : consStep s k l = some k') : k'.query = k.query := by
  cases l <;> simp only [consStep] at h <;> repeat' split at h
  all_goals simp only [Option.some.injEq, reduceCtorEq] at h
  all_goals subst h; rfl

theorem step_query {s s' : St} {l : Label} (h : Waiting.step s l = some s') {c : Nat} {k : Cons} (hk : s.cons[c]? = some k) :
    ∃ k', s'.cons[c]? = some k' ∧ k'.query = k.query := by
  cases l with
  | arriveItem kvs => simp only [Waiting.step, Option.some.injEq] at h; subst h; exact ⟨k, hk, rfl⟩
  | create j =>
    simp only [Waiting.step, Waiting.createStep] at h
    repeat' split at h
    all_goals try simp only [Option.some.injEq, reduceCtorEq] at h
    all_goals subst h
    · exact ⟨k, hk, rfl⟩
    · simp only [announce, St.setProd, List.getElem?_map, hk, Option.map_some, Option.some.injEq, exists_eq_left']
      split <;> rfl
    · exact ⟨k, hk, rfl⟩
  | delete j =>
    simp only [Waiting.step] at h
    repeat' split at h
    all_goals try simp only [Option.some.injEq, reduceCtorEq] at h
    subst h; exact ⟨k, hk, rfl⟩
  | arriveClient q =>
    simp only [Waiting.step, Option.some.injEq] at h; subst h
    exact ⟨k, by rw [List.getElem?_append_left (lt_of_get hk)]; exact hk, rfl⟩
  | register d | start d | visit d | finish d | lookup d | iterate d | pass d | wait d =>
    simp only [Waiting.step, Label.client] at h
    rcases hd : s.cons[d]? with _ | k0
    · simp only [hd, reduceCtorEq] at h
    · simp only [hd, Option.map_eq_some_iff] at h
      obtain ⟨k', h1, h2⟩ := h
      subst h2
      by_cases e : d = c
      · subst e
        rw [hk] at hd; cases hd
        exact ⟨k', by simp [List.getElem?_set, lt_of_get hk], consStep_query h1⟩
      · exact ⟨k, by simp [List.getElem?_set, e]; exact hk, rfl⟩

theorem run_query : ∀ (ls : List Label) {s s' : St}, Waiting.run s ls = some s' → ∀ {c : Nat} {k : Cons}, s.cons[c]? = some k →
    ∃ k', s'.cons[c]? = some k' ∧ k'.query = k.query
  | [], s, s', h, c, k, hk => by simp only [Waiting.run, Option.some.injEq] at h; subst h; exact ⟨k, hk, rfl⟩
  | l :: ls, s, s', h, c, k, hk => by
    simp only [Waiting.run] at h
    split at h
    · cases h
    · next s1 h1 =>
      obtain ⟨k1, h2, h3⟩ := step_query h1 hk
      obtain ⟨k2, h4, h5⟩ := run_query ls h h2
      exact ⟨k2, h4, h5.trans h3⟩

theorem run_append (s : St) (a b : List Label) : Waiting.run s (a ++ b) = (Waiting.run s a).bind (fun s' => Waiting.run s' b) := by
  induction a generalizing s with
  | nil => rfl
  | cons l a ih =>
    simp only [List.cons_append, Waiting.run]
    split
    · next h => simp [h]
    · next s1 h => simp [h, ih]

end Willow.Waiting
