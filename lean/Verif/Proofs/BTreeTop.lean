import Verif.Proofs.BTreeFind
set_option linter.unusedSectionVars false
set_option linter.unusedSimpArgs false
set_option linter.unusedVariables false
/-! Tree level results: histories, finds, destroy, failing creates. -/
namespace Willow.BTree
open KeyOps LawfulKey Spec

variable {K V : Type} [LawfulKey K]

theorem inOrder_eq_flat {n : Nat} : ∀ (h : Nat) (t : Node K V), WF n h t → inOrder t = flat h t := by
  intro h
  induction h with
  | zero =>
    rintro ⟨kvs, cs⟩ w
    have : cs = [] := w.1
    subst this
    simp [inOrder, weave, flat]
  | succ h ih =>
    rintro ⟨kvs, cs⟩ w
    have hwc : ∀ c ∈ cs, WF n h c := fun c hc => (w.2.2 c hc).1
    have hl : cs.length = kvs.length + 1 := w.1
    simp only [inOrder, flat_mk_succ]
    clear w
    induction kvs generalizing cs with
    | nil =>
      obtain ⟨c, rfl⟩ := List.length_eq_one_iff.1 hl
      simp [weave, interleave, ih c (hwc c (by simp))]
    | cons kv ks ihk =>
      cases cs with
      | nil => simp at hl
      | cons c cs =>
        simp only [weave, List.map_cons, interleave_cons]
        rw [ihk cs (fun d hd => hwc d (List.mem_cons_of_mem _ hd)) (by simpa using hl), ih c (hwc c (by simp))]

/-! ### Finds -/

theorem filter_keq {l : List (K × V)} (hs : Sorted l) (key : K) : l.filter (fun kv => keq kv.1 key) = (lookupL key l).toList := by
  induction l with
  | nil => rfl
  | cons a l ih =>
    rw [sorted_cons] at hs
    simp only [lookupL, List.find?_cons, List.filter_cons]
    cases ha : keq a.1 key with
    | false => simpa [lookupL] using ih hs.2
    | true =>
      simp only [if_true, Option.toList_some, List.cons.injEq, true_and]
      rw [List.filter_eq_nil_iff]
      intro x hx
      have := lt_of_keq_lt (keq_symm ha) (hs.1 x hx)
      simp [not_keq_of_gt this]

theorem keq_any (k : K) : keq k any = decide (typ k = DataType.any) := by
  by_cases h : typ k = DataType.any
  · have := any_unique h
    subst this; simp [h, keq_refl]
  · have : keq k any = false := by
      cases h' : keq k any with
      | false => rfl
      | true => exact absurd (by rw [keq_typ h', typ_any]) h
    simp [h, this]

theorem findAny_spec {S : Type} {b : Tree K V} {l} (hr : RepW b l) {r} (hroot : b.root = some r) (cb : Callback K V S) (s : S) :
    findAny cb r s = some (visitAll cb (l.filter (fun kv => decide (typ kv.1 = DataType.any))) s).1 := by
  have hlk := tree_lookup_spec hr (any : K)
  simp only [Tree.lookup, hroot] at hlk
  simp only [findAny, hlk]
  have hf := filter_keq hr.2.1 (any : K)
  have : (fun kv : K × V => decide (typ kv.1 = DataType.any)) = (fun kv => keq kv.1 any) := by
    funext kv; rw [keq_any]
  rw [this, hf]
  cases h : lookupL any l with
  | none => rfl
  | some kv =>
    have h' := (lookupL_keq h).2
    rw [keq_any] at h'
    have := any_unique (by simpa using h')
    simp only [Option.toList_some, visitAll, this]
    rcases cb s any kv.2 with ⟨s', _ | _⟩ <;> rfl

theorem tree_rangeFind_spec {b : Tree K V} {l} (hr : RepW b l) {turn : K → Turn} {P : K → Bool} (ok : TurnOK turn P) :
    ∃ ord : List (K × V), ord.Perm (l.filter (fun kv => P kv.1)) ∧ (b.root = none → ord = []) ∧
      ∀ (r : Node K V), b.root = some r → ∀ (S : Type) (cb : Callback K V S) (s : S),
        rangeFind turn cb (r.depth + 1) r s = some (visitAll cb ord s) := by
  obtain ⟨hn, hs, h3⟩ := hr
  cases hroot : b.root with
  | none =>
    simp only [hroot] at h3; subst h3
    exact ⟨[], by simp, fun _ => rfl, by simp⟩
  | some r =>
    simp only [hroot] at h3
    obtain ⟨h, a, c, d⟩ := h3
    refine ⟨order turn h r, by rw [← c]; exact order_perm ok h r a (by rw [c]; exact hs), by simp, ?_⟩
    intro r' hr' S cb s
    cases hr'
    exact rangeFind_spec turn cb h _ r a (by rw [depth_of_WF a]; omega) s

theorem find_iterate_spec {b : Tree K V} {l} (hr : RepW b l) {key : K} (hk : typ key = DataType.any) (tr : TypeRestrictions) :
    ∃ ord : List (K × V), ord.Perm (l.filter (fun kv => decide (tr.lo ≤ typ kv.1) && decide (typ kv.1 ≤ tr.hi))) ∧
      ∀ (S : Type) (cb : Callback K V S) (s : S), b.find key tr cb s = some (visitAll cb ord s).1 := by
  obtain ⟨ord, o1, o2, o3⟩ := tree_rangeFind_spec hr (turnIterate_ok (K := K) tr.lo tr.hi)
  refine ⟨ord, o1, ?_⟩
  intro S cb s
  simp only [Tree.find]
  cases hroot : b.root with
  | none => rw [o2 hroot]; rfl
  | some r =>
    have hg : DataType.isGeneral (typ key) = false := by rw [hk]; decide
    have ha : DataType.isAny (typ key) = true := by rw [hk]; decide
    simp only [hg, ha, Bool.false_eq_true, if_false, if_true]
    rw [o3 r hroot S cb s]; rfl

theorem find_exact_spec {b : Tree K V} {l} (hr : RepW b l) {key : K} (hk : typ key ≠ DataType.any) (tr : TypeRestrictions)
    {S : Type} (cb : Callback K V S) (s : S) :
    b.find key tr cb s = some (visitAll cb
      ((if tr.lo ≤ typ key ∧ typ key ≤ tr.hi then ((lookupL key l).map (fun kv => (key, kv.2))).toList else []) ++
       (if tr.hi = DataType.any then l.filter (fun kv => decide (typ kv.1 = DataType.any)) else [])) s).1 := by
  have hg : DataType.isGeneral (typ key) = true := (typ_valid key).resolve_right hk
  simp only [Tree.find]
  have hlk := tree_lookup_spec hr key
  simp only [Tree.lookup] at hlk
  cases hroot : b.root with
  | none =>
    have : l = [] := by have := hr.2.2; simpa [hroot] using this
    subst this
    simp [visitAll, lookupL]
  | some r =>
    simp only [hroot] at hlk
    simp only [hg, if_true, hlk]
    have hfa := fun s => findAny_spec hr hroot cb s
    by_cases hc : tr.lo ≤ typ key ∧ typ key ≤ tr.hi
    · have hc' : ¬ typ key < tr.lo ∧ ¬ tr.hi < typ key := by omega
      simp only [hc, hc', if_true, and_self, not_false_eq_true]
      cases hl : lookupL key l with
      | none =>
        by_cases h2 : tr.hi = DataType.any
        · simp [h2, hfa]
        · simp [h2, visitAll]
      | some kv =>
        simp only [Option.map_some, Option.toList_some, List.singleton_append, visitAll]
        rcases cb s key kv.2 with ⟨s', _ | _⟩
        · simp
        · by_cases h2 : tr.hi = DataType.any
          · simp [h2, hfa]
          · simp [h2, visitAll]
    · have hc' : ¬ (¬ typ key < tr.lo ∧ ¬ tr.hi < typ key) := by omega
      simp only [hc, hc', if_false, List.nil_append]
      by_cases h2 : tr.hi = DataType.any
      · simp [h2, hfa]
      · simp [h2, visitAll]

theorem visitAll_skip {S : Type} (cb : Callback K V S) (p : K → Bool) (l : List (K × V)) (s : S) :
    visitAll (fun s k v => if p k then (s, true) else cb s k v) l s = visitAll cb (l.filter (fun kv => !p kv.1)) s := by
  induction l generalizing s with
  | nil => rfl
  | cons a l ih =>
    simp only [visitAll, List.filter_cons]
    by_cases h : p a.1 = true
    · simp only [h, if_true, Bool.not_true, Bool.false_eq_true, if_false]; exact ih s
    · simp only [h, Bool.not_false, if_true, visitAll, Bool.false_eq_true, if_false]
      rcases cb s a.1 a.2 with ⟨s', _ | _⟩
      · rfl
      · exact ih s'

theorem findNotEqual_spec {b : Tree K V} {l} (hr : RepW b l) (key : K) (tr : TypeRestrictions) :
    ∃ ord : List (K × V), ord.Perm (l.filter (fun kv => !same key kv.1 && (decide (tr.lo ≤ typ kv.1) && decide (typ kv.1 ≤ tr.hi)))) ∧
      ∀ (S : Type) (cb : Callback K V S) (s : S), b.findNotEqual key tr cb s = some (visitAll cb ord s).1 := by
  obtain ⟨ord, o1, o2, o3⟩ := tree_rangeFind_spec hr (turnIterate_ok (K := K) tr.lo tr.hi)
  refine ⟨ord.filter (fun kv => !same key kv.1), ?_, ?_⟩
  · rw [← List.filter_filter]; exact o1.filter _
  · intro S cb s
    simp only [Tree.findNotEqual]
    cases hroot : b.root with
    | none => rw [o2 hroot]; rfl
    | some r =>
      simp only []
      rw [o3 r hroot S _ s]
      have := visitAll_skip cb (same key) ord s
      simp only [same] at this ⊢
      exact congrArg (fun x => some x.1) this

theorem findBelow_spec {b : Tree K V} {l} (hr : RepW b l) {turn : K → Turn} {P : K → Bool} (ok : TurnOK turn P) (key : K) (tr : TypeRestrictions)
    (hlow : typ key < tr.lo → ∀ k, P k = false) (hna : ∀ k, P k = true → typ k ≠ DataType.any) :
    ∃ ord : List (K × V), ord.Perm (l.filter (fun kv => P kv.1 || (decide (typ kv.1 = DataType.any) && decide (tr.hi = DataType.any)))) ∧
      ∀ (S : Type) (cb : Callback K V S) (s : S), b.findBelow turn key tr cb s = some (visitAll cb ord s).1 := by
  obtain ⟨ord, o1, o2, o3⟩ := tree_rangeFind_spec hr ok
  let anys := if tr.hi = DataType.any then l.filter (fun kv => decide (typ kv.1 = DataType.any)) else []
  refine ⟨ord ++ anys, ?_, ?_⟩
  · have : ∀ l : List (K × V), (l.filter (fun kv => P kv.1) ++
        (if tr.hi = DataType.any then l.filter (fun kv => decide (typ kv.1 = DataType.any)) else [])).Perm
        (l.filter (fun kv => P kv.1 || (decide (typ kv.1 = DataType.any) && decide (tr.hi = DataType.any)))) := by
      intro l
      by_cases hh : tr.hi = DataType.any
      · simp only [hh, if_true, decide_true, Bool.and_true]
        induction l with
        | nil => simp
        | cons a l ih =>
          simp only [List.filter_cons]
          by_cases hp : P a.1 = true
          · have := hna _ hp
            simp [hp, this]; exact ih
          · simp only [Bool.not_eq_true] at hp
            by_cases ht : typ a.1 = DataType.any
            · simp only [hp, ht, decide_true, if_true, Bool.false_or, Bool.false_eq_true, if_false]
              exact List.perm_middle.trans (List.Perm.cons _ ih)
            · simp [hp, ht]; exact ih
      · simp [hh]
    exact (o1.append_right _).trans (this l)
  · intro S cb s
    simp only [Tree.findBelow]
    cases hroot : b.root with
    | none =>
      have : l = [] := by have := hr.2.2; simpa [hroot] using this
      subst this
      rw [o2 hroot]; simp [anys, visitAll]
    | some r =>
      simp only []
      have step : (if ¬ typ key < tr.lo then rangeFind turn cb (r.depth + 1) r s else some (s, true)) = some (visitAll cb ord s) := by
        by_cases hl : typ key < tr.lo
        · have : ord = [] := by
            have : l.filter (fun kv => P kv.1) = [] := filter_none (fun x _ => hlow hl x.1)
            rw [this] at o1
            exact o1.eq_nil
          simp [hl, this, visitAll]
        · rw [if_pos hl, o3 r hroot S cb s]
      rw [step, visitAll_append]
      rcases visitAll cb ord s with ⟨s', _ | _⟩
      · simp
      · by_cases hh : tr.hi = DataType.any
        · simp only [hh, anys, if_true, and_self]
          exact findAny_spec hr hroot cb s'
        · simp [hh, anys, visitAll]

theorem findLessThan_spec {b : Tree K V} {l} (hr : RepW b l) {key : K} (tr : TypeRestrictions) :
    ∃ ord : List (K × V), ord.Perm (l.filter (fun kv => (lt kv.1 key && decide (tr.lo ≤ typ kv.1)) ||
        (decide (typ kv.1 = DataType.any) && decide (tr.hi = DataType.any)))) ∧
      ∀ (S : Type) (cb : Callback K V S) (s : S), b.findLessThan key tr cb s = some (visitAll cb ord s).1 := by
  refine findBelow_spec hr (turnLessThan_ok key tr.lo) key tr ?_ ?_
  · intro h k
    cases h' : lt k key with
    | false => rfl
    | true => have := lt_typ h'; simp; omega
  · intro k h
    simp at h
    exact any_top h.1

theorem findLessThanOrEqual_spec {b : Tree K V} {l} (hr : RepW b l) {key : K} (hk : typ key ≠ DataType.any) (tr : TypeRestrictions) :
    ∃ ord : List (K × V), ord.Perm (l.filter (fun kv => (!lt key kv.1 && decide (tr.lo ≤ typ kv.1)) ||
        (decide (typ kv.1 = DataType.any) && decide (tr.hi = DataType.any)))) ∧
      ∀ (S : Type) (cb : Callback K V S) (s : S), b.findLessThanOrEqual key tr cb s = some (visitAll cb ord s).1 := by
  refine findBelow_spec hr (turnLessThanOrEqual_ok key tr.lo) key tr ?_ ?_
  · intro h k
    cases h' : lt key k with
    | true => rfl
    | false => have := not_lt_typ h'; simp; omega
  · intro k h ht
    simp at h
    have := not_lt_typ h.1
    have := typ_le key
    omega

theorem findAbove_spec {b : Tree K V} {l} (hr : RepW b l) {turn : K → Turn} {P : K → Bool} (ok : TurnOK turn P) (key : K) (tr : TypeRestrictions)
    (hlow : tr.hi < typ key → ∀ k, P k = false) :
    ∃ ord : List (K × V), ord.Perm (l.filter (fun kv => P kv.1)) ∧
      ∀ (S : Type) (cb : Callback K V S) (s : S), b.findAbove turn key tr cb s = some (visitAll cb ord s).1 := by
  obtain ⟨ord, o1, o2, o3⟩ := tree_rangeFind_spec hr ok
  refine ⟨ord, o1, ?_⟩
  intro S cb s
  simp only [Tree.findAbove]
  cases hroot : b.root with
  | none => rw [o2 hroot]; rfl
  | some r =>
    simp only []
    by_cases hl : tr.hi < typ key
    · have : ord = [] := by
        have : l.filter (fun kv => P kv.1) = [] := filter_none (fun x _ => hlow hl x.1)
        rw [this] at o1
        exact o1.eq_nil
      simp [hl, this, visitAll]
    · rw [if_pos hl, o3 r hroot S cb s]; rfl

theorem findGreaterThan_spec {b : Tree K V} {l} (hr : RepW b l) (key : K) (tr : TypeRestrictions) :
    ∃ ord : List (K × V), ord.Perm (l.filter (fun kv => lt key kv.1 && decide (typ kv.1 ≤ tr.hi))) ∧
      ∀ (S : Type) (cb : Callback K V S) (s : S), b.findGreaterThan key tr cb s = some (visitAll cb ord s).1 := by
  refine findAbove_spec hr (turnGreaterThan_ok key tr.hi) key tr ?_
  intro h k
  cases h' : lt key k with
  | false => rfl
  | true => have := lt_typ h'; simp; omega

theorem findGreaterThanOrEqual_spec {b : Tree K V} {l} (hr : RepW b l) (key : K) (tr : TypeRestrictions) :
    ∃ ord : List (K × V), ord.Perm (l.filter (fun kv => !lt kv.1 key && decide (typ kv.1 ≤ tr.hi))) ∧
      ∀ (S : Type) (cb : Callback K V S) (s : S), b.findGreaterThanOrEqual key tr cb s = some (visitAll cb ord s).1 := by
  refine findAbove_spec hr (turnGreaterThanOrEqual_ok key tr.hi) key tr ?_
  intro h k
  cases h' : lt k key with
  | true => rfl
  | false => have := not_lt_typ h'; simp; omega

/-! ### Histories -/

theorem find_one_spec {b : Tree K V} {l} (hr : RepW b l) (key : K) :
    b.find key ⟨typ key, typ key⟩ (fun _ _ v => (some v, false)) (none : Option V) = some ((lookupL key l).map (·.2)) := by
  by_cases hk : typ key = DataType.any
  · obtain ⟨ord, o1, o2⟩ := find_iterate_spec hr hk ⟨typ key, typ key⟩
    rw [o2]
    have : (fun kv : K × V => decide (typ key ≤ typ kv.1) && decide (typ kv.1 ≤ typ key)) = (fun kv => keq kv.1 key) := by
      funext kv
      have : key = any := any_unique hk
      rw [this, keq_any, ← this, hk, Bool.eq_iff_iff]
      simp; omega
    simp only [this] at o1
    rw [filter_keq hr.2.1] at o1
    cases hl : lookupL key l with
    | none => rw [hl] at o1; simp at o1; subst o1; rfl
    | some kv => rw [hl] at o1; simp at o1; subst o1; rfl
  · rw [find_exact_spec hr hk]
    simp only [Int.le_refl, and_self, if_true, hk, if_false, List.append_nil]
    cases lookupL key l <;> rfl

theorem treeStep_spec {b : Tree K V} {l} (hr : Rep b l) (op : Op K V) :
    ∃ b' out l', treeStep b op = some (b', out) ∧ Rep b' l' ∧ mapStep (mapOf l) op = (mapOf l', out) ∧ b'.nodeSize = b.nodeSize := by
  have hnsC : ∀ k v b' o, b.create k (some v) = some (b', o) → b'.nodeSize = b.nodeSize := by
    intro k v b' o h
    simp only [Tree.create] at h
    split at h <;> simp at h <;> rw [← h.1]
  cases op with
  | create k v =>
    obtain ⟨b', o, c1, c2⟩ := tree_create_spec hr.weak k v
    simp only [treeStep, c1, mapStep, mapOf]
    cases o with
    | found kv => exact ⟨b', _, l, rfl, c2.2 ▸ hr, by simp [c2.1, mapOf], hnsC _ _ _ _ c1⟩
    | created => exact ⟨b', _, _, rfl, c2.2, by simp only [c2.1]; rw [mapOf_insertL c2.1], hnsC _ _ _ _ c1⟩
  | createOrFind k v =>
    obtain ⟨b', o, c1, c2⟩ := tree_createOrFind_spec hr.weak k v
    have hns : b'.nodeSize = b.nodeSize := by
      simp only [Tree.createOrFind] at c1
      split at c1
      · cases c1
      · simp at c1; rw [← c1.1]
      · exact hnsC _ _ _ _ c1
    simp only [treeStep, c1, mapStep, mapOf]
    cases o with
    | found kv => exact ⟨b', _, l, rfl, c2.2 ▸ hr, by simp [c2.1, mapOf], hns⟩
    | created => exact ⟨b', _, _, rfl, c2.2, by simp only [c2.1]; rw [mapOf_insertL c2.1], hns⟩
  | find k =>
    simp only [treeStep, find_one_spec hr.weak, mapStep]
    exact ⟨b, _, l, rfl, hr, rfl, rfl⟩
  | delete k can =>
    obtain ⟨b', d1, d2, d3⟩ := tree_delete_spec hr.weak k (answer can)
    have hns : b'.nodeSize = b.nodeSize := by
      simp only [Tree.delete] at d1
      split at d1
      · simp at d1; rw [← d1.1]
      · split at d1
        · cases d1
        · split at d1 <;> simp at d1 <;> rw [← d1.1]
    simp only [treeStep, d1]
    refine ⟨b', _, _, rfl, d3 hr, ?_, hns⟩
    simp only [mapStep, afterDelete, mapOf, answer]
    cases hl : lookupL k l with
    | none => cases can <;> simp [hl] <;> rfl
    | some kv =>
      cases can with
      | none => simp [hl]; rw [← mapOf_eraseL]
      | some f =>
        by_cases hf : f kv = true
        · simp [hl, hf]; rw [← mapOf_eraseL]
        · simp [hl, hf]

theorem treeRun_spec {b : Tree K V} {l} (hr : Rep b l) (ops : List (Op K V)) :
    ∃ b' outs l', treeRun b ops = some (b', outs) ∧ Rep b' l' ∧ mapRun (mapOf l) ops = (mapOf l', outs) ∧ b'.nodeSize = b.nodeSize := by
  induction ops generalizing b l with
  | nil => exact ⟨b, [], l, rfl, hr, rfl, rfl⟩
  | cons op ops ih =>
    obtain ⟨b1, o, l1, s1, s2, s3, s4⟩ := treeStep_spec hr op
    obtain ⟨b2, os, l2, t1, t2, t3, t4⟩ := ih s2
    exact ⟨b2, o :: os, l2, by simp [treeRun, s1, t1], t2, by simp [mapRun, s3, t3], by omega⟩

theorem reachable_rep {b : Tree K V} (h : Reachable b) : ∃ l, Rep b l := by
  obtain ⟨n, b0, ops, outs, h1, h2⟩ := h
  obtain ⟨b', outs', l', r1, r2, _⟩ := treeRun_spec (rep_new h1) ops
  rw [h2] at r1
  cases r1
  exact ⟨l', r2⟩

/-! ### DestroyAll -/

mutual
theorem keysOf_eq : ∀ t : Node K V, keysOf t = (nodeContents t).map (·.1)
  | .mk kvs cs => by simp [keysOf, nodeContents, keysOfList_eq cs]
theorem keysOfList_eq : ∀ cs : List (Node K V), keysOfList cs = (listContents cs).map (·.1)
  | [] => rfl
  | c :: cs => by simp [keysOfList, listContents, keysOf_eq c, keysOfList_eq cs]
end

theorem destroyLoop_spec {S : Type} (can : S → K → V → S × Bool) (rest : List (K × V)) {b : Tree K V} {l} (hr : Rep b l)
    (hp : rest.Perm l) (s : S) :
    ∃ b' l', destroyLoop can (rest.map (·.1)) b s = some (b', (destroyUntil can rest s).1) ∧ Rep b' l' ∧
      l'.Perm (destroyUntil can rest s).2 := by
  induction rest generalizing b l s with
  | nil => exact ⟨b, l, rfl, hr, hp.symm⟩
  | cons kv rest ih =>
    obtain ⟨hn, hs, h3⟩ := hr
    have hmem : kv ∈ l := hp.mem_iff.1 (by simp)
    have hlk : lookupL kv.1 l = some kv := lookupL_of_mem hs hmem (keq_refl _)
    cases hroot : b.root with
    | none => simp only [hroot] at h3; subst h3; simp at hmem
    | some r =>
      simp only [hroot] at h3
      obtain ⟨h, a, c, d⟩ := h3
      obtain ⟨res, q1, q2, q3, q4⟩ := root_remove_spec hs hn a c (fun _ => d) kv.1 (fun x => (can s x.1 x.2).2)
      simp only [List.map_cons, destroyLoop, hroot, q1, q2, hlk]
      have hnr : (if (res.under && res.node.count == 0) = true then { b with root := res.node.children[0]? } else { b with root := some res.node }) = newRoot b res := rfl
      rw [hnr]
      have hrep := q4 d
      simp only [afterDelete, hlk] at hrep
      simp only [destroyUntil]
      rcases hcan : can s kv.1 kv.2 with ⟨s', _ | _⟩
      · simp only [hcan, Bool.false_eq_true, if_false] at hrep ⊢
        exact ⟨_, l, rfl, hrep, hp.symm⟩
      · simp only [hcan, if_true] at hrep ⊢
        have hp' : rest.Perm (eraseL kv.1 l) := by
          have h1 : (eraseL kv.1 (kv :: rest)).Perm (eraseL kv.1 l) := hp.filter _
          have h2 : eraseL kv.1 (kv :: rest) = eraseL kv.1 rest := by simp [eraseL, keq_refl]
          rw [h2] at h1
          have h3 : eraseL kv.1 rest = rest := by
            simp only [eraseL, List.filter_eq_self]
            intro x hx
            cases hq : keq x.1 kv.1 with
            | false => rfl
            | true =>
              exfalso
              have hxl : x ∈ l := hp.mem_iff.1 (by simp [hx])
              have := lookupL_of_mem hs hxl hq
              rw [hlk] at this
              injection this with this
              subst this
              have hnd : (kv :: rest).Nodup := by
                refine (hp.nodup_iff).2 ?_
                refine List.Pairwise.imp ?_ hs
                rintro x y hxy rfl
                rw [irrefl] at hxy; cases hxy
              exact (List.nodup_cons.1 hnd).1 hx
          rw [h3] at h1; exact h1
        exact ih hrep hp' s'

theorem destroyAll_spec {b : Tree K V} {l} (hr : Rep b l) :
    ∃ ord : List (K × V), ord.Perm l ∧ ∀ (S : Type) (can : S → K → V → S × Bool) (s : S),
      ∃ b' l', b.destroyAll can s = some (b', (destroyUntil can ord s).1) ∧ Rep b' l' ∧ l'.Perm (destroyUntil can ord s).2 := by
  cases hroot : b.root with
  | none =>
    have hl : l = [] := by have := hr.2.2; simpa [hroot] using this
    refine ⟨[], by simp [hl], ?_⟩
    intro S can s
    refine ⟨b, l, by simp [Tree.destroyAll, hroot, destroyUntil], hr, by simp [hl, destroyUntil]⟩
  | some r =>
    have hp := hr.weak.contents_perm
    simp only [contents, hroot] at hp
    refine ⟨nodeContents r, hp, ?_⟩
    intro S can s
    obtain ⟨b', l', q1, q2, q3⟩ := destroyLoop_spec can (nodeContents r) hr hp s
    exact ⟨b', l', by simp only [Tree.destroyAll, hroot, keysOf_eq]; exact q1, q2, q3⟩

theorem Rep.root_none {b : Tree K V} {l} (hr : Rep b l) : b.root = none ↔ l = [] := by
  cases hroot : b.root with
  | none => have := hr.2.2; simp [hroot] at this; simp [this]
  | some r =>
    have := hr.2.2
    simp only [hroot] at this
    obtain ⟨h, a, c, d⟩ := this
    have := flat_ne_nil (h := h) d
    rw [c] at this
    simp [this]

end Willow.BTree
