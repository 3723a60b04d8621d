import Verif.Proofs.BTreeTop
import Verif.Proofs.BTreeFail
import Verif.Proofs.BTreeLocks
set_option linter.unusedSimpArgs false
/-
Properties C06-C17: the ordered tree (internal/datastructures/btree).

`Key` is the type of usable keys (well-formed, not NaN), `Reachable b` says that `b` is obtained from an empty
tree of node size at least two by some history of Create / CreateOrFind / Find / Delete.
-/
namespace Willow.Props
open BTree Spec KeyOps LawfulKey

variable {V : Type}

/-- Example keys: 64 bit integers. -/
def ki (n : Int64) : Key := ⟨⟨9, .int64 n⟩, rfl, id⟩
/-- Example keys: bytes. -/
def ku (n : UInt8) : Key := ⟨⟨1, .uint8 n⟩, rfl, id⟩
/-- Example key: the wildcard. -/
def kany : Key := ⟨⟨1024, .nil⟩, rfl, id⟩

/-- The histories of the examples: create 1, 2, ... under integer keys. -/
def creates (ks : List Int64) : List (Op Key Nat) := ks.map (fun k => .create (ki k) k.toInt.toNat)

/-- The tree of node size two after a history (no history crashes, see C07, so the other case never applies). -/
def built (ops : List (Op Key V)) : Tree Key V :=
  match treeRun ⟨2, none⟩ ops with
  | some r => r.1
  | none => ⟨2, none⟩

theorem built_reachable (ops : List (Op Key V)) : Reachable (built ops) := by
  have h : newTree Key V 2 = some ⟨2, none⟩ := rfl
  obtain ⟨b, outs, _, h1, _⟩ := treeRun_spec (rep_new h) ops
  exact ⟨2, _, ops, outs, h, by simp [built, h1]⟩

/-- Nine items in a tree of node size two. -/
def nine : Tree Key Nat := built (creates [5, 1, 9, 3, 7, 2, 8, 4, 6])

/-! ## C06 – the tree is a map -/

/-- C06.  For every node size of at least two and every history, the tree never crashes, gives exactly the answers of a
map, and holds exactly the items of the map, each once. -/
theorem C06_tree_is_map (n : Nat) (b0 : Tree Key V) (hn : newTree Key V n = some b0) (ops : List (Op Key V)) :
    ∃ b outs, treeRun b0 ops = some (b, outs) ∧ (mapRun (fun _ => none) ops).2 = outs ∧
      (∀ kv, kv ∈ contents b ↔ (mapRun (fun _ => none) ops).1 kv.1 = some kv) ∧
      (contents b).Pairwise (fun a c => same a.1 c.1 = false) := by
  obtain ⟨b, outs, l, h1, h2, h3, _⟩ := treeRun_spec (rep_new hn) ops
  have e : (mapOf ([] : List (Key × V))) = fun _ => none := rfl
  rw [e] at h3
  have hp := h2.weak.contents_perm
  have hs := h2.2.1
  refine ⟨b, outs, h1, by rw [h3], ?_, ?_⟩
  · intro kv
    rw [hp.mem_iff, h3]
    exact ⟨fun hk => lookupL_of_mem hs hk (keq_refl _), fun hk => (lookupL_keq hk).1⟩
  · refine (hp.pairwise_iff ?_).2 (List.Pairwise.imp ?_ hs)
    · intro x y hxy; rw [← keq_eq_same, keq_comm, keq_eq_same]; exact hxy
    · intro x y hxy; exact not_keq_of_lt hxy

/-- The exact lookup used by the history (`Find` restricted to the key's own type) sees exactly the stored item. -/
theorem C06_find_sees_the_stored_item (n : Nat) (b0 b : Tree Key V) (hn : newTree Key V n = some b0) (ops : List (Op Key V)) (outs)
    (hr : treeRun b0 ops = some (b, outs)) (k : Key) :
    b.find k ⟨k.1.type, k.1.type⟩ (fun _ _ v => (some v, false)) none = some (((mapRun (fun _ => none) ops).1 k).map (·.2)) := by
  obtain ⟨b', outs', l, h1, h2, h3, _⟩ := treeRun_spec (rep_new hn) ops
  rw [hr] at h1; cases h1
  have e : (mapOf ([] : List (Key × V))) = fun _ => none := rfl
  rw [e] at h3
  rw [h3]
  exact find_one_spec h2.weak k

/-- Non-vacuity: a history of eleven creates and some deletes in a tree of node size two. -/
example : ((treeRun ⟨2, none⟩ (creates [5, 1, 9, 3, 7, 2, 8, 4, 6] ++ [.create (ki 4) 0, .delete (ki 5) none, .find (ki 5), .find (ki 4),
      .delete (ki 4) (some fun _ => false), .createOrFind (ki 4) 7])).map
        (fun r => (r.2.drop 9, (contents r.1).length)) : Option (List (Out Key Nat) × Nat)) =
    some ([.create false, .delete none, .find none, .find (some 4), .delete (some (ki 4, 4)), .createOrFind (some 4)], 8) := by
  decide +kernel

/-- C06 (for the same key type).  Two keys of the tree are the same key exactly when they have the same type and equal payloads. -/
theorem C06_same_is_equal_payload (a b : Key) : same a b = true ↔ SameValue a.1 b.1 := by
  have h1 := lessMatchType_eq a.2.1 b.2.1 a.2.2 b.2.2
  have h2 := lessMatchType_eq b.2.1 a.2.1 b.2.2 a.2.2
  rw [sameValue_iff a.2.1 b.2.1]
  have : same a b = (!(decide (rankLt a.1 b.1)) && !(decide (rankLt b.1 a.1))) := by
    simp only [same, lt, h1, h2]
    by_cases x : rankLt a.1 b.1 <;> by_cases y : rankLt b.1 a.1 <;> simp [x, y]
  rw [this]
  simp only [Bool.and_eq_true, Bool.not_eq_true', decide_eq_false_iff_not]
  constructor
  · rintro ⟨x, y⟩; exact rankLt_incomp x y
  · intro h
    have := rankLt_of_eq (c := b.1) h
    exact ⟨fun h => rankLt_irrefl _ (this.1.1 h), fun h => rankLt_irrefl _ (this.2.1 h)⟩

/-! ## C07 – balance and bounds -/

/-- C07.  In every reachable tree all leaves are at the same depth, every node below the root holds between
`nodeSize/2` and `nodeSize` values and the root between 1 and `nodeSize`, an inner node has one child more than
values, and the keys from left to right are strictly increasing. -/
theorem C07_balanced (b : Tree Key V) (hb : Reachable b) (r : Node Key V) (hr : b.root = some r) :
    (∃ height, Balanced b.nodeSize height r) ∧ 1 ≤ r.count ∧ r.count ≤ b.nodeSize ∧
      (inOrder r).Pairwise (fun x y => lt x.1 y.1 = true) ∧ (inOrder r).Perm (contents b) := by
  obtain ⟨l, h1, h2, h3⟩ := reachable_rep hb
  simp only [hr] at h3
  obtain ⟨h, w, f, c⟩ := h3
  have hio := inOrder_eq_flat h r w
  refine ⟨⟨h, wf_iff_balanced.1 w⟩, c, ?_, by rw [hio, f]; exact h2, ?_⟩
  · cases h with
    | zero => exact w.2
    | succ h => exact w.2.1
  · rw [hio]; simp only [contents, hr]; exact (contents_perm w).symm

/-- C07, second half: no history makes the tree crash (index out of a node, nil node), whatever the node size of at
least two. -/
theorem C07_never_crashes (n : Nat) (hn : 2 ≤ n) (ops : List (Op Key V)) :
    ∃ b0 b outs, newTree Key V n = some b0 ∧ treeRun b0 ops = some (b, outs) ∧ b.nodeSize = n := by
  have h : newTree Key V n = some ⟨n, none⟩ := by simp [newTree]; omega
  obtain ⟨b, outs, _, h1, _, _, h2⟩ := treeRun_spec (rep_new h) ops
  exact ⟨_, b, outs, h, h1, h2⟩

/-- Non-vacuity: a reachable tree of height two. -/
example : Reachable nine ∧ (contents nine).length = 9 ∧ nine.root.map Node.depth = some 2 :=
  ⟨built_reachable _, by decide +kernel, by decide +kernel⟩

/-! ## C08 – failing creates -/

/-- C08 is false of the code: a create whose callback fails can lose a stored item.  In a tree holding 1 and 2 (node
size two) a failed create of 0 loses the item of 2. -/
theorem C08_violated_failed_create_loses_item :
    ∃ (b : Tree Key Nat) (key : Key) (kv : Key × Nat) (b' : Tree Key Nat) (o : CreateOut Key Nat),
      Reachable b ∧ b.create key none = some (b', o) ∧ kv ∈ contents b ∧ kv ∉ contents b' := by
  have h : ((built (creates [1, 2])).create (ki 0) none).map (fun r => contents r.1) = some [(ki 1, 1), (ki 1, 1)] := by decide +kernel
  rcases hc : (built (creates [1, 2])).create (ki 0) none with _ | ⟨b', o⟩
  · rw [hc] at h; cases h
  · rw [hc] at h
    simp only [Option.map_some, Option.some.injEq] at h
    refine ⟨_, ki 0, (ki 2, 2), b', o, built_reachable (creates [1, 2]), hc, by decide +kernel, ?_⟩
    rw [h]; decide +kernel

/-- C08, what holds (also for `CreateOrFind`): a failed create never crashes; if the key is present nothing changes
at all; if no stored key is greater than the key the items stay the same; in every case the number of items
stays the same and no item appears that was not stored before.
Missing: that no item is lost when a greater key is stored (false, see above). -/
theorem C08_failed_create_partial (b : Tree Key V) (hb : Reachable b) (key : Key) :
    ∃ b' o, b.create key none = some (b', o) ∧ b.createOrFind key none = some (b', o) ∧
      ((∃ kv ∈ contents b, same kv.1 key = true) → b' = b) ∧
      ((∀ kv ∈ contents b, lt key kv.1 = false) → (contents b').Perm (contents b)) ∧
      (contents b').length = (contents b).length ∧ (∀ kv ∈ contents b', kv ∈ contents b) := by
  obtain ⟨l, hr⟩ := reachable_rep hb
  have hp := hr.weak.contents_perm
  have hlk := tree_lookup_spec hr.weak key
  rcases tree_create_fail_spec hr.weak key with ⟨kv, q1, q2⟩ | ⟨b', l', q1, q2, q3, q4⟩
  · refine ⟨b, _, q1, by simp [Tree.createOrFind, hlk, q2], fun _ => rfl, fun _ => List.Perm.refl _, rfl, fun _ h => h⟩
  · refine ⟨b', _, q1, by simp only [Tree.createOrFind, hlk, q2]; exact q1, ?_, ?_, ?_, ?_⟩
    · rintro ⟨kv, h1, h2⟩
      have := lookupL_of_mem hr.2.1 (hp.mem_iff.1 h1) h2
      rw [q2] at this; cases this
    · intro h
      rcases q3 with q3 | ⟨A, x, xs, C, y1, y2, y3⟩
      · subst q3; exact q4.trans hp.symm
      · have := h x (hp.mem_iff.2 (by rw [y1]; simp))
        rw [this] at y3; cases y3
    · rw [q4.length_eq, hp.length_eq]
      rcases q3 with q3 | ⟨A, x, xs, C, y1, y2, y3⟩
      · rw [q3]
      · rw [y1, y2]; simp
    · intro kv hkv
      rw [hp.mem_iff]
      rw [q4.mem_iff] at hkv
      rcases q3 with q3 | ⟨A, x, xs, C, y1, y2, y3⟩
      · rw [q3] at hkv; exact hkv
      · rw [y2] at hkv
        rw [y1]
        simp only [List.mem_append, List.mem_cons] at hkv ⊢
        rcases hkv with (h | h | h) | h
        · exact .inl (.inl h)
        · exact .inl (.inr (.inl h))
        · have := (List.dropLast_subset _) h
          simp at this
          rcases this with h | h
          · exact .inl (.inr (.inl h))
          · exact .inl (.inr (.inr h))
        · exact .inr h

/-- Non-vacuity: the good case, a failed create of 3 in a tree holding 1 and 2. -/
example : Reachable nine ∧ (∀ kv ∈ contents nine, lt (ki 10) kv.1 = false) ∧
    (nine.create (ki 10) none).map (fun r => (contents r.1).length) = some 9 :=
  ⟨built_reachable _, by decide +kernel, by decide +kernel⟩

/-! ## C09 – delete and canDelete -/

/-- C09.  Delete asks `canDelete` at most once, and only about the stored key and value of the requested key; the tree
afterwards holds exactly the same items if the key is absent or the answer is no, and exactly all
other items if the answer is yes (or there is no callback). -/
theorem C09_delete (b : Tree Key V) (hb : Reachable b) (key : Key) (can : Option (Key × V → Bool)) :
    ∃ b' asked, b.delete key (answer can) = some (b', asked) ∧
      (∀ kv, asked = some kv ↔ kv ∈ contents b ∧ same kv.1 key = true) ∧
      (contents b').Perm (match asked with
        | some kv => if answer can kv then (contents b).filter (fun x => !same x.1 key) else contents b
        | none => contents b) := by
  obtain ⟨l, hr⟩ := reachable_rep hb
  have hp := hr.weak.contents_perm
  obtain ⟨b', d1, d2, _⟩ := tree_delete_spec hr.weak key (answer can)
  refine ⟨b', _, d1, ?_, ?_⟩
  · intro kv
    rw [hp.mem_iff]
    exact ⟨fun h => lookupL_keq h, fun h => lookupL_of_mem hr.2.1 h.1 h.2⟩
  · refine d2.contents_perm.trans ?_
    simp only [afterDelete]
    cases lookupL key l with
    | none => exact hp.symm
    | some kv =>
      simp only []
      split
      · exact (hp.filter _).symm
      · exact hp.symm

/-- C09, a refused delete leaves the tree itself unchanged: every later operation behaves as if it had not been called. -/
theorem C09_refused_delete_changes_no_answer (b b' : Tree Key V) (hb : Reachable b) (key : Key) (can : Key × V → Bool) (asked)
    (hd : b.delete key can = some (b', asked)) (hno : ∀ kv, can kv = false) (k : Key) :
    b'.lookup k = b.lookup k := by
  obtain ⟨l, hr⟩ := reachable_rep hb
  obtain ⟨b'', d1, d2, _⟩ := tree_delete_spec hr.weak key can
  rw [hd] at d1; cases d1
  rw [tree_lookup_spec hr.weak, tree_lookup_spec d2]
  simp only [afterDelete, hno]
  cases lookupL key l <;> simp

example : Reachable nine ∧ (nine.delete (ki 5) (answer (some fun kv => kv.2 == 5))).map (fun r => (r.2, (contents r.1).length)) = some (some (ki 5, 5), 8) :=
  ⟨built_reachable _, by decide +kernel⟩

/-! ## C10 – DestroyAll -/

/-- C10.  DestroyAll goes through the stored items once each, in some order fixed by the tree, deletes each approved one and
stops at the first refusal: the items left are exactly the refused one and those after it.  It never crashes, and the tree
is empty (`Empty` says so) exactly when nothing is left. -/
theorem C10_destroyAll (b : Tree Key V) (hb : Reachable b) :
    ∃ order : List (Key × V), order.Perm (contents b) ∧ ∀ (S : Type) (can : S → Key → V → S × Bool) (s : S),
      ∃ b', b.destroyAll can s = some (b', (destroyUntil can order s).1) ∧
        (contents b').Perm (destroyUntil can order s).2 ∧ (b'.empty = true ↔ (destroyUntil can order s).2 = []) := by
  obtain ⟨l, hr⟩ := reachable_rep hb
  obtain ⟨ord, o1, o2⟩ := destroyAll_spec hr
  refine ⟨ord, o1.trans hr.weak.contents_perm.symm, ?_⟩
  intro S can s
  obtain ⟨b', l', q1, q2, q3⟩ := o2 S can s
  refine ⟨b', q1, q2.weak.contents_perm.trans q3, ?_⟩
  simp only [Tree.empty, Option.isNone_iff_eq_none, q2.root_none]
  constructor
  · rintro rfl; exact q3.nil_eq.symm ▸ rfl
  · intro h; rw [h] at q3; exact q3.eq_nil

/-- C10, the common case: if every answer is yes the tree is empty afterwards. -/
theorem C10_destroyAll_all_approved (b : Tree Key V) (hb : Reachable b) (S : Type) (can : S → Key → V → S × Bool) (s : S)
    (yes : ∀ s k v, (can s k v).2 = true) :
    ∃ b' s', b.destroyAll can s = some (b', s') ∧ b'.empty = true ∧ contents b' = [] := by
  obtain ⟨ord, _, o2⟩ := C10_destroyAll b hb
  obtain ⟨b', q1, q2, q3⟩ := o2 S can s
  have : ∀ (l : List (Key × V)) (s : S), (destroyUntil can l s).2 = [] := by
    intro l
    induction l with
    | nil => intro s; rfl
    | cons a l ih =>
      intro s
      simp only [destroyUntil]
      have := yes s a.1 a.2
      rcases hc : can s a.1 a.2 with ⟨s', b⟩
      rw [hc] at this; simp at this; subst this
      exact ih s'
  rw [this] at q2 q3
  exact ⟨b', _, q1, q3.2 rfl, q2.eq_nil⟩

/-- Non-vacuity: nine items, the callback refuses its fifth call. -/
example : Reachable nine ∧ (nine.destroyAll (fun (n : Nat) _ _ => (n + 1, decide (n < 4))) 0).map (fun r => (r.2, (contents r.1).length)) = some (5, 5) :=
  ⟨built_reachable _, by decide +kernel⟩

/-! ## C11-C15 – traversals -/

theorem filter_or_perm {α : Type} (p q : α → Bool) (l : List α) (hd : ∀ x ∈ l, p x = true → q x = false) :
    (l.filter (fun x => p x || q x)).Perm (l.filter p ++ l.filter q) := by
  induction l with
  | nil => simp
  | cons a l ih =>
    have ih' := ih (fun x hx => hd x (by simp [hx]))
    simp only [List.filter_cons]
    cases hp : p a with
    | true =>
      have := hd a (by simp) hp
      simp only [this, Bool.true_or, if_true, Bool.false_eq_true, if_false, List.cons_append]
      exact List.Perm.cons _ ih'
    | false =>
      cases hq : q a with
      | true =>
        simp only [Bool.or_true, if_true, Bool.false_eq_true, if_false]
        exact (List.Perm.cons _ ih').trans List.perm_middle.symm
      | false => simpa using ih'

theorem Visits.of_perm {t : Traversal Key V} {l l' : List (Key × V)} (h : ∃ order : List (Key × V), order.Perm l ∧
    ∀ (S : Type) (cb : Callback Key V S) (s : S), t S cb s = some (visitAll cb order s).1) (hp : l.Perm l') : Visits t l' := by
  obtain ⟨o, h1, h2⟩ := h
  exact ⟨o, h1.trans hp, h2⟩

/-- C11.  Find with a concrete key: the item of that key iff its type is inside the restriction (given back under the
searched key), and the item of `any` iff the restriction's maximum is any. -/
theorem C11_find_concrete (b : Tree Key V) (hb : Reachable b) (key : Key) (hk : isAny key = false) (tr : TypeRestrictions) :
    Visits (fun _ cb s => b.find key tr cb s)
      (((contents b).filter (fun kv => (same kv.1 key && within tr key) || (isAny kv.1 && decide (tr.hi = DataType.any)))).map
        (fun kv => (if isAny kv.1 then kv.1 else key, kv.2))) := by
  obtain ⟨l, hr⟩ := reachable_rep hb
  have hk' : typ key ≠ DataType.any := of_decide_eq_false hk
  refine ⟨_, ?_, fun S cb s => find_exact_spec hr.weak hk' tr cb s⟩
  refine List.Perm.trans ?_ ((hr.weak.contents_perm.filter _).map _).symm
  refine List.Perm.trans ?_ ((filter_or_perm _ _ l ?_).map _).symm
  · rw [List.map_append]
    have e1 : (if tr.lo ≤ typ key ∧ typ key ≤ tr.hi then ((lookupL key l).map (fun kv => (key, kv.2))).toList else []) =
        (l.filter (fun kv => same kv.1 key && within tr key)).map (fun kv => (if isAny kv.1 then kv.1 else key, kv.2)) := by
      by_cases hc : tr.lo ≤ typ key ∧ typ key ≤ tr.hi
      · have hw : within tr key = true := by simp only [within, ← Bool.decide_and, decide_eq_true_eq]; exact hc
        simp only [hc, and_self, if_true, hw, Bool.and_true]
        have : (fun kv : Key × V => same kv.1 key) = (fun kv => keq kv.1 key) := rfl
        rw [this, filter_keq hr.2.1]
        cases hl : lookupL key l with
        | none => rfl
        | some kv =>
          have hkk := (lookupL_keq hl).2
          have : isAny kv.1 = false := by
            have h1 := keq_typ hkk
            have h2 : typ kv.1 ≠ DataType.any := by rw [h1]; exact hk'
            exact decide_eq_false h2
          simp [this]
      · have hw : within tr key = false := by
          simp only [within, ← Bool.decide_and, decide_eq_false_iff_not]; exact hc
        simp [hc, hw]
    have e2 : (if tr.hi = DataType.any then l.filter (fun kv => decide (typ kv.1 = DataType.any)) else []) =
        (l.filter (fun kv => isAny kv.1 && decide (tr.hi = DataType.any))).map (fun kv => (if isAny kv.1 then kv.1 else key, kv.2)) := by
      by_cases hh : tr.hi = DataType.any
      · simp only [hh, if_true, decide_true, Bool.and_true]
        have : (fun kv : Key × V => decide (typ kv.1 = DataType.any)) = (fun kv => isAny kv.1) := rfl
        rw [this]
        rw [List.map_congr_left (g := id)]
        · simp
        · intro kv hkv
          have := (List.mem_filter.1 hkv).2
          simp [this]
      · simp [hh]
    rw [e1, e2]
  · intro x _ hx
    simp only [Bool.and_eq_true] at hx
    have h1 := keq_typ (show keq x.1 key = true from hx.1)
    have h2 : typ x.1 ≠ DataType.any := by rw [h1]; exact hk'
    have : isAny x.1 = false := by exact decide_eq_false h2
    simp [this]

/-- C11.  Find with `any` visits exactly the items whose type is inside the restriction. -/
theorem C11_find_any (b : Tree Key V) (hb : Reachable b) (key : Key) (hk : isAny key = true) (tr : TypeRestrictions) :
    Visits (fun _ cb s => b.find key tr cb s) ((contents b).filter (fun kv => within tr kv.1)) := by
  obtain ⟨l, hr⟩ := reachable_rep hb
  have hk' : typ key = DataType.any := of_decide_eq_true hk
  exact Visits.of_perm (find_iterate_spec hr.weak hk' tr) (hr.weak.contents_perm.filter _).symm

/-- C12.  FindNotEqual visits exactly the other keys inside the restriction. -/
theorem C12_findNotEqual (b : Tree Key V) (hb : Reachable b) (key : Key) (tr : TypeRestrictions) :
    Visits (fun _ cb s => b.findNotEqual key tr cb s) ((contents b).filter (fun kv => !same key kv.1 && within tr kv.1)) := by
  obtain ⟨l, hr⟩ := reachable_rep hb
  exact Visits.of_perm (findNotEqual_spec hr.weak key tr) (hr.weak.contents_perm.filter _).symm

/-- C13, exactly what FindLessThan visits: the smaller keys of type at least the restriction's minimum – the maximum is
*not* respected – plus `any` iff the maximum is any.  Missing for the full C13: the upper type bound. -/
theorem C13_findLessThan_partial (b : Tree Key V) (hb : Reachable b) (key : Key) (tr : TypeRestrictions) :
    Visits (fun _ cb s => b.findLessThan key tr cb s) ((contents b).filter (fun kv =>
      (lt kv.1 key && decide (tr.lo ≤ kv.1.1.type)) || (isAny kv.1 && decide (tr.hi = DataType.any)))) := by
  obtain ⟨l, hr⟩ := reachable_rep hb
  exact Visits.of_perm (findLessThan_spec hr.weak tr) (hr.weak.contents_perm.filter _).symm

/-- C13 for FindLessThanOrEqual (concrete keys, the only ones it accepts). -/
theorem C13_findLessThanOrEqual_partial (b : Tree Key V) (hb : Reachable b) (key : Key) (hk : isAny key = false) (tr : TypeRestrictions) :
    Visits (fun _ cb s => b.findLessThanOrEqual key tr cb s) ((contents b).filter (fun kv =>
      (!lt key kv.1 && decide (tr.lo ≤ kv.1.1.type)) || (isAny kv.1 && decide (tr.hi = DataType.any)))) := by
  obtain ⟨l, hr⟩ := reachable_rep hb
  exact Visits.of_perm (findLessThanOrEqual_spec hr.weak (of_decide_eq_false hk) tr) (hr.weak.contents_perm.filter _).symm

/-- C13 in full, when the key's own type does not exceed the restriction's maximum. -/
theorem C13_findLessThan_when_key_within_max (b : Tree Key V) (hb : Reachable b) (key : Key) (tr : TypeRestrictions)
    (hm : key.1.type ≤ tr.hi) :
    Visits (fun _ cb s => b.findLessThan key tr cb s) ((contents b).filter (fun kv =>
      (lt kv.1 key && within tr kv.1) || (isAny kv.1 && decide (tr.hi = DataType.any)))) := by
  have h := C13_findLessThan_partial b hb key tr
  have e : (fun kv : Key × V => (lt kv.1 key && decide (tr.lo ≤ kv.1.1.type)) || (isAny kv.1 && decide (tr.hi = DataType.any))) =
      (fun kv => (lt kv.1 key && within tr kv.1) || (isAny kv.1 && decide (tr.hi = DataType.any))) := by
    funext kv
    cases hl : lt kv.1 key with
    | false => rfl
    | true =>
      have h1 : typ kv.1 ≤ typ key := lt_typ hl
      have h2 : kv.1.1.type ≤ tr.hi := Int.le_trans h1 hm
      simp [within, h2]
  rw [e] at h; exact h

/-- C13 in full for FindLessThanOrEqual, when the key's own type does not exceed the restriction's maximum. -/
theorem C13_findLessThanOrEqual_when_key_within_max (b : Tree Key V) (hb : Reachable b) (key : Key) (hk : isAny key = false)
    (tr : TypeRestrictions) (hm : key.1.type ≤ tr.hi) :
    Visits (fun _ cb s => b.findLessThanOrEqual key tr cb s) ((contents b).filter (fun kv =>
      (!lt key kv.1 && within tr kv.1) || (isAny kv.1 && decide (tr.hi = DataType.any)))) := by
  have h := C13_findLessThanOrEqual_partial b hb key hk tr
  have e : (fun kv : Key × V => (!lt key kv.1 && decide (tr.lo ≤ kv.1.1.type)) || (isAny kv.1 && decide (tr.hi = DataType.any))) =
      (fun kv => (!lt key kv.1 && within tr kv.1) || (isAny kv.1 && decide (tr.hi = DataType.any))) := by
    funext kv
    cases hl : lt key kv.1 with
    | true => rfl
    | false =>
      have h1 : typ kv.1 ≤ typ key := not_lt_typ hl
      have h2 : kv.1.1.type ≤ tr.hi := Int.le_trans h1 hm
      simp [within, h2]
  rw [e] at h; exact h

/-- Names the items a traversal visits when the callback never stops. -/
def visited (t : Traversal Key V) : Option (List (Key × V)) := t _ (fun l k v => (l ++ [(k, v)], true)) []

/-- C13 is false of the code: with the restriction uint8..uint8, FindLessThan (and FindLessThanOrEqual) of an int64 key
visits int64 items, which are outside the restriction. -/
theorem C13_violated_max_type_ignored :
    ∃ (b : Tree Key Nat) (key : Key) (tr : TypeRestrictions), Reachable b ∧ tr.validate = true ∧
      (∃ l, visited (fun _ cb s => b.findLessThan key tr cb s) = some l ∧ ∃ kv ∈ l, within tr kv.1 = false ∧ isAny kv.1 = false) ∧
      (∃ l, visited (fun _ cb s => b.findLessThanOrEqual key tr cb s) = some l ∧ ∃ kv ∈ l, within tr kv.1 = false ∧ isAny kv.1 = false) := by
  exact ⟨built (creates [1, 2]), ki 2, ⟨1, 1⟩, built_reachable _, by decide, ⟨[(ki 1, 1)], by decide +kernel, (ki 1, 1), by decide +kernel⟩,
    ⟨[(ki 1, 1), (ki 2, 2)], by decide +kernel, (ki 1, 1), by decide +kernel⟩⟩

/-- C14, exactly what FindGreaterThan visits: the greater keys of type at most the restriction's maximum – the minimum is
*not* respected.  Missing for the full C14: the lower type bound. -/
theorem C14_findGreaterThan_partial (b : Tree Key V) (hb : Reachable b) (key : Key) (tr : TypeRestrictions) :
    Visits (fun _ cb s => b.findGreaterThan key tr cb s) ((contents b).filter (fun kv => lt key kv.1 && decide (kv.1.1.type ≤ tr.hi))) := by
  obtain ⟨l, hr⟩ := reachable_rep hb
  exact Visits.of_perm (findGreaterThan_spec hr.weak key tr) (hr.weak.contents_perm.filter _).symm

/-- C14 for FindGreaterThanOrEqual. -/
theorem C14_findGreaterThanOrEqual_partial (b : Tree Key V) (hb : Reachable b) (key : Key) (tr : TypeRestrictions) :
    Visits (fun _ cb s => b.findGreaterThanOrEqual key tr cb s) ((contents b).filter (fun kv => !lt kv.1 key && decide (kv.1.1.type ≤ tr.hi))) := by
  obtain ⟨l, hr⟩ := reachable_rep hb
  exact Visits.of_perm (findGreaterThanOrEqual_spec hr.weak key tr) (hr.weak.contents_perm.filter _).symm

/-- C14 in full, when the key's own type is not below the restriction's minimum. -/
theorem C14_findGreaterThan_when_key_within_min (b : Tree Key V) (hb : Reachable b) (key : Key) (tr : TypeRestrictions)
    (hm : tr.lo ≤ key.1.type) :
    Visits (fun _ cb s => b.findGreaterThan key tr cb s) ((contents b).filter (fun kv => lt key kv.1 && within tr kv.1)) := by
  have h := C14_findGreaterThan_partial b hb key tr
  have e : (fun kv : Key × V => lt key kv.1 && decide (kv.1.1.type ≤ tr.hi)) = (fun kv => lt key kv.1 && within tr kv.1) := by
    funext kv
    cases hl : lt key kv.1 with
    | false => rfl
    | true =>
      have h1 : typ key ≤ typ kv.1 := lt_typ hl
      have h2 : tr.lo ≤ kv.1.1.type := Int.le_trans hm h1
      simp [within, h2]
  rw [e] at h; exact h

/-- C14 in full for FindGreaterThanOrEqual, when the key's own type is not below the restriction's minimum. -/
theorem C14_findGreaterThanOrEqual_when_key_within_min (b : Tree Key V) (hb : Reachable b) (key : Key) (tr : TypeRestrictions)
    (hm : tr.lo ≤ key.1.type) :
    Visits (fun _ cb s => b.findGreaterThanOrEqual key tr cb s) ((contents b).filter (fun kv => !lt kv.1 key && within tr kv.1)) := by
  have h := C14_findGreaterThanOrEqual_partial b hb key tr
  have e : (fun kv : Key × V => !lt kv.1 key && decide (kv.1.1.type ≤ tr.hi)) = (fun kv => !lt kv.1 key && within tr kv.1) := by
    funext kv
    cases hl : lt kv.1 key with
    | true => rfl
    | false =>
      have h1 : typ key ≤ typ kv.1 := not_lt_typ hl
      have h2 : tr.lo ≤ kv.1.1.type := Int.le_trans hm h1
      simp [within, h2]
  rw [e] at h; exact h

/-- C14 is false of the code: with the restriction string..string, FindGreaterThan (and OrEqual) of an int64 key visits
int64 items. -/
theorem C14_violated_min_type_ignored :
    ∃ (b : Tree Key Nat) (key : Key) (tr : TypeRestrictions), Reachable b ∧ tr.validate = true ∧
      (∃ l, visited (fun _ cb s => b.findGreaterThan key tr cb s) = some l ∧ ∃ kv ∈ l, within tr kv.1 = false) ∧
      (∃ l, visited (fun _ cb s => b.findGreaterThanOrEqual key tr cb s) = some l ∧ ∃ kv ∈ l, within tr kv.1 = false) := by
  exact ⟨built (creates [1, 2]), ki 1, ⟨13, 13⟩, built_reachable _, by decide, ⟨[(ki 2, 2)], by decide +kernel, (ki 2, 2), by decide +kernel⟩,
    ⟨[(ki 1, 1), (ki 2, 2)], by decide +kernel, (ki 2, 2), by decide +kernel⟩⟩

/-- Non-vacuity for C11-C14: a tree with bytes, integers and the wildcard; the traversals under the restriction
int64..any from the key 5. -/
example : ∃ b : Tree Key Nat, Reachable b ∧ ((contents b).length = 12 ∧
    (visited (fun _ cb s => b.find (ki 5) ⟨9, 1024⟩ cb s)).map (·.map (·.2)) = some [5, 100] ∧
    (visited (fun _ cb s => b.find kany ⟨9, 1024⟩ cb s)).map (·.length) = some 10 ∧
    (visited (fun _ cb s => b.findNotEqual (ki 5) ⟨9, 1024⟩ cb s)).map (·.length) = some 9 ∧
    (visited (fun _ cb s => b.findLessThan (ki 5) ⟨9, 1024⟩ cb s)).map (·.length) = some 5 ∧
    (visited (fun _ cb s => b.findLessThanOrEqual (ki 5) ⟨9, 1024⟩ cb s)).map (·.length) = some 6 ∧
    (visited (fun _ cb s => b.findGreaterThan (ki 5) ⟨9, 1024⟩ cb s)).map (·.length) = some 5 ∧
    (visited (fun _ cb s => b.findGreaterThanOrEqual (ki 5) ⟨9, 1024⟩ cb s)).map (·.length) = some 6) :=
  ⟨built (creates [5, 1, 9, 3, 7, 2, 8, 4, 6] ++ [.create kany 100, .create (ku 200) 200, .create (ku 201) 201]), built_reachable _,
    by decide +kernel⟩

/-- Run a traced callback over a list. -/
theorem traced_log {S : Type} (cb : Callback Key V S) (l : List (Key × V)) (s : S) (log0 : List ((Key × V) × Bool)) :
    ∃ s' log, (visitAll (traced cb) l (s, log0)).1 = (s', log0 ++ log) ∧ log.map (·.1) <+: l ∧
      (∀ pre kv post, log = pre ++ (kv, false) :: post → post = []) ∧
      ((∀ c ∈ log, c.2 = true) → log.map (·.1) = l) := by
  induction l generalizing s log0 with
  | nil => exact ⟨s, [], by simp [visitAll], by simp, by simp, by simp⟩
  | cons a l ih =>
    simp only [visitAll, traced]
    rcases hc : cb s a.1 a.2 with ⟨s', _ | _⟩
    · refine ⟨s', [(a, false)], rfl, by simp, ?_, by simp⟩
      intro pre kv post h
      cases pre with
      | nil => simp at h; exact h.2
      | cons x pre => simp at h
    · obtain ⟨s'', log, q1, q2, q3, q4⟩ := ih s' (log0 ++ [(a, true)])
      refine ⟨s'', (a, true) :: log, by rw [show log0 ++ (a, true) :: log = log0 ++ [(a, true)] ++ log by simp]; exact q1, ?_, ?_, ?_⟩
      · simpa using q2
      · intro pre kv post h
        cases pre with
        | nil => simp at h
        | cons x pre =>
          simp at h
          exact q3 pre kv post h.2
      · intro h
        simp [q4 (fun c hc => h c (by simp [hc]))]

/-- A traversal that visits some items stops when told to. -/
theorem Visits.stops {t : Traversal Key V} {items : List (Key × V)} (h : Visits t items) : StopsWhenTold t := by
  obtain ⟨ord, _, h2⟩ := h
  refine ⟨ord, ?_, ?_⟩
  · intro S cb s yes
    obtain ⟨s', log, q1, q2, q3, q4⟩ := traced_log cb ord s []
    refine ⟨s', log, by rw [h2, q1]; simp, q4 ?_⟩
    intro c hc
    have : ∀ (l : List (Key × V)) (s : S) (log0 : List ((Key × V) × Bool)), (∀ c ∈ log0, c.2 = true) →
        ∀ c ∈ (visitAll (traced cb) l (s, log0)).1.2, c.2 = true := by
      intro l
      induction l with
      | nil => intro s log0 h; exact h
      | cons a l ih =>
        intro s log0 h
        simp only [visitAll, traced]
        have hy := yes s a.1 a.2
        rcases hc : cb s a.1 a.2 with ⟨s', b⟩
        rw [hc] at hy; simp at hy; subst hy
        refine ih s' _ ?_
        intro c hc
        simp at hc
        rcases hc with hc | rfl
        · exact h c hc
        · rfl
    have h3 := this ord s [] (by simp)
    rw [q1] at h3
    exact h3 c (by simpa using hc)
  · intro S cb s
    obtain ⟨s', log, q1, q2, q3, q4⟩ := traced_log cb ord s []
    exact ⟨s', log, by rw [h2, q1]; simp, q2, q3, q4⟩

/-- C15.  Every traversal stops as soon as the callback says so, the wildcard item included. -/
theorem C15_traversals_stop_when_told (b : Tree Key V) (hb : Reachable b) (key : Key) (tr : TypeRestrictions) :
    StopsWhenTold (fun _ cb s => b.find key tr cb s) ∧
    StopsWhenTold (fun _ cb s => b.findNotEqual key tr cb s) ∧
    StopsWhenTold (fun _ cb s => b.findLessThan key tr cb s) ∧
    (isAny key = false → StopsWhenTold (fun _ cb s => b.findLessThanOrEqual key tr cb s)) ∧
    StopsWhenTold (fun _ cb s => b.findGreaterThan key tr cb s) ∧
    StopsWhenTold (fun _ cb s => b.findGreaterThanOrEqual key tr cb s) := by
  refine ⟨?_, Visits.stops (C12_findNotEqual b hb key tr), Visits.stops (C13_findLessThan_partial b hb key tr),
    fun hk => Visits.stops (C13_findLessThanOrEqual_partial b hb key hk tr), Visits.stops (C14_findGreaterThan_partial b hb key tr),
    Visits.stops (C14_findGreaterThanOrEqual_partial b hb key tr)⟩
  cases hk : isAny key with
  | false => exact Visits.stops (C11_find_concrete b hb key hk tr)
  | true => exact Visits.stops (C11_find_any b hb key hk tr)

/-- Non-vacuity: a callback that stops at the second call makes exactly two calls. -/
example : Reachable nine ∧
    (nine.find kany ⟨1, 1024⟩ (traced (fun (n : Nat) _ _ => (n + 1, decide (n < 1)))) (0, [])).map (fun r => r.2.map (·.2)) = some [true, false] :=
  ⟨built_reachable _, by decide +kernel⟩

/-! ## C16 – read locks -/

/-- No lock is held. -/
def unlocked : Locks := fun _ => 0

/-- C16 is false of the code (tree lock): a Find whose key type lies outside the restriction, a FindLessThan whose key type
is below the minimum and a FindGreaterThan whose key type is above the maximum return with the tree read-locked. -/
theorem C16_violated_tree_left_locked :
    ∃ (b : Tree Key Nat), Reachable b ∧
      (∃ (key : Key) (tr : TypeRestrictions), tr.validate = true ∧
        (b.findL key tr (fun s _ _ => (s, true)) () unlocked).map (fun r => r.2 none) = some 1) ∧
      (∃ (key : Key) (tr : TypeRestrictions), tr.validate = true ∧
        (b.findLessThanL key tr (fun s _ _ => (s, true)) () unlocked).map (fun r => r.2 none) = some 1) ∧
      (∃ (key : Key) (tr : TypeRestrictions), tr.validate = true ∧
        (b.findGreaterThanL key tr (fun s _ _ => (s, true)) () unlocked).map (fun r => r.2 none) = some 1) :=
  ⟨built (creates [1, 2]), built_reachable _, ⟨ki 1, ⟨1, 1⟩, by decide +kernel⟩, ⟨ku 1, ⟨9, 9⟩, by decide +kernel⟩,
    ⟨ki 1, ⟨1, 1⟩, by decide +kernel⟩⟩

/-- C16 is false of the code (node locks): a Find for `any` that skips smaller types and is stopped by its callback
unlocks a node it has not locked, which is a fatal error of the Go runtime (`none`). -/
theorem C16_violated_iterate_unlocks_wrong_node :
    ∃ (b : Tree Key Nat) (tr : TypeRestrictions) (cb : Callback Key Nat Nat), Reachable b ∧ tr.validate = true ∧
      b.findL kany tr cb 0 unlocked = none ∧ (b.find kany tr cb 0).isSome = true :=
  ⟨built [.create (ku 1) 201, .create (ku 2) 202, .create (ki 1) 1, .create (ki 2) 2, .create (ki 3) 3], ⟨9, 1024⟩, fun s _ v => (s, v != 1),
    built_reachable _, by decide +kernel⟩

/-- C16 for Find: it gives the result of the lock-free model, never unlocks an unheld lock, and leaves all locks as they
were – except that it leaves the tree read-locked exactly when the tree is not empty, the maximum is not any and the (concrete)
key's type is outside the restriction.  For `any` the callback must not stop, or no smaller type may be stored. -/
theorem C16_find_locks_partial (b : Tree Key V) (hb : Reachable b) (key : Key) (tr : TypeRestrictions) (hv : tr.validate = true)
    {S : Type} (cb : Callback Key V S) (s : S) (L : Locks)
    (hcb : isAny key = true → (∀ kv ∈ contents b, tr.lo ≤ kv.1.1.type) ∨ ∀ s k v, (cb s k v).2 = true) :
    ∃ s', b.find key tr cb s = some s' ∧ b.findL key tr cb s L = some (s',
      if contents b ≠ [] ∧ isAny key = false ∧ tr.hi ≠ DataType.any ∧ within tr key = false then rlock none L else L) := by
  obtain ⟨l, hr⟩ := reachable_rep hb
  have hp := hr.weak.contents_perm
  have hhi : tr.hi ≤ DataType.any := by
    simp only [TypeRestrictions.validate, Bool.and_eq_true, Bool.or_eq_true] at hv
    rcases hv.1.2 with h | h
    · simp [DataType.isGeneral, DataType.uint8, DataType.uint16, DataType.uint32, DataType.uint64, DataType.uint, DataType.int8,
        DataType.int16, DataType.int32, DataType.int64, DataType.int, DataType.float32, DataType.float64, DataType.string, DataType.any] at h ⊢
      omega
    · simp [DataType.isAny] at h; omega
  have hsome : ∃ s', b.find key tr cb s = some s' := by
    cases hk : isAny key with
    | false => exact ⟨_, (C11_find_concrete b hb key hk tr).choose_spec.2 S cb s⟩
    | true => exact ⟨_, (C11_find_any b hb key hk tr).choose_spec.2 S cb s⟩
  obtain ⟨s', hs'⟩ := hsome
  refine ⟨s', hs', ?_⟩
  rw [findL_spec hr.weak key tr hhi cb ?_ s L, hs']
  · simp only [Option.map_some]
    have hroot : b.root.isSome = decide (contents b ≠ []) := by
      have h1 := hr.root_none
      have h2 : contents b = [] ↔ l = [] := by
        constructor
        · intro h; rw [h] at hp; exact hp.nil_eq.symm
        · intro h; rw [h] at hp; exact hp.eq_nil
      cases hb' : b.root with
      | none => simp [h2.2 (h1.1 hb')]
      | some r =>
        have : contents b ≠ [] := fun h => by rw [h1.2 (h2.1 h)] at hb'; cases hb'
        simp [this]
    have : leakFind b key tr = decide (contents b ≠ [] ∧ isAny key = false ∧ tr.hi ≠ DataType.any ∧ within tr key = false) := by
      simp only [leakFind, hroot, isAny, within, typ]
      by_cases h1 : contents b = [] <;> by_cases h2 : key.1.type = DataType.any <;> by_cases h3 : tr.hi = DataType.any <;>
        by_cases h4 : tr.lo ≤ key.1.type <;> by_cases h5 : key.1.type ≤ tr.hi <;> simp [h1, h2, h3, h4, h5]
    rw [this]
    by_cases h : contents b ≠ [] ∧ isAny key = false ∧ tr.hi ≠ DataType.any ∧ within tr key = false
    · rw [if_pos h, if_pos (decide_eq_true h)]
    · rw [if_neg h, if_neg (by simpa using h)]
  · intro hk
    have : isAny key = true := decide_eq_true hk
    rcases hcb this with h | h
    · exact .inl (fun kv hkv => h kv (hp.mem_iff.2 hkv))
    · exact .inr h

/-- C16 for FindNotEqual: all locks are as before, if the callback does not stop or no smaller type is stored. -/
theorem C16_findNotEqual_locks_partial (b : Tree Key V) (hb : Reachable b) (key : Key) (tr : TypeRestrictions)
    {S : Type} (cb : Callback Key V S) (s : S) (L : Locks)
    (hcb : (∀ kv ∈ contents b, tr.lo ≤ kv.1.1.type) ∨ ∀ s k v, (cb s k v).2 = true) :
    ∃ s', b.findNotEqual key tr cb s = some s' ∧ b.findNotEqualL key tr cb s L = some (s', L) := by
  obtain ⟨l, hr⟩ := reachable_rep hb
  have hp := hr.weak.contents_perm
  obtain ⟨ord, _, ho⟩ := C12_findNotEqual b hb key tr
  have hs' : b.findNotEqual key tr cb s = _ := ho S cb s
  refine ⟨_, hs', ?_⟩
  rw [findNotEqualL_spec hr.weak key tr cb ?_ s L, hs']
  · rfl
  · rcases hcb with h | h
    · exact .inl (fun kv hkv => h kv (hp.mem_iff.2 hkv))
    · exact .inr h

/-- C16 for FindLessThan and FindLessThanOrEqual: all locks are as before whatever the callback does, when the key's type is
at least the minimum or the maximum is any (otherwise see the violation). -/
theorem C16_findLess_locks_partial (b : Tree Key V) (hb : Reachable b) (key : Key) (tr : TypeRestrictions) (hv : tr.hi ≤ DataType.any)
    {S : Type} (cb : Callback Key V S) (s : S) (L : Locks) (hk : isAny key = false)
    (hok : tr.lo ≤ key.1.type ∨ tr.hi = DataType.any) :
    (∃ s', b.findLessThan key tr cb s = some s' ∧ b.findLessThanL key tr cb s L = some (s', L)) ∧
    (∃ s', b.findLessThanOrEqual key tr cb s = some s' ∧ b.findLessThanOrEqualL key tr cb s L = some (s', L)) := by
  obtain ⟨l, hr⟩ := reachable_rep hb
  have hno : (b.root.isSome && decide (tr.hi ≠ DataType.any) && decide (typ key < tr.lo)) = false := by
    rcases hok with h | h
    · have : ¬ key.1.type < tr.lo := by omega
      simp [typ, this]
    · simp [h]
  constructor
  · have hs' := (C13_findLessThan_partial b hb key tr).choose_spec.2 S cb s
    refine ⟨_, hs', ?_⟩
    simp only [Tree.findLessThanL]
    rw [findBelowL_spec hr.weak _ key tr hv cb s L]
    simp only [Tree.findLessThan] at hs'
    rw [hs', hno]; rfl
  · have hs' := (C13_findLessThanOrEqual_partial b hb key hk tr).choose_spec.2 S cb s
    refine ⟨_, hs', ?_⟩
    simp only [Tree.findLessThanOrEqualL]
    rw [findBelowL_spec hr.weak _ key tr hv cb s L]
    simp only [Tree.findLessThanOrEqual] at hs'
    rw [hs', hno]; rfl

/-- C16 for FindGreaterThan and FindGreaterThanOrEqual: all locks are as before whatever the callback does, when the key's type is
at most the maximum (otherwise see the violation). -/
theorem C16_findGreater_locks_partial (b : Tree Key V) (hb : Reachable b) (key : Key) (tr : TypeRestrictions)
    {S : Type} (cb : Callback Key V S) (s : S) (L : Locks) (hok : key.1.type ≤ tr.hi) :
    (∃ s', b.findGreaterThan key tr cb s = some s' ∧ b.findGreaterThanL key tr cb s L = some (s', L)) ∧
    (∃ s', b.findGreaterThanOrEqual key tr cb s = some s' ∧ b.findGreaterThanOrEqualL key tr cb s L = some (s', L)) := by
  obtain ⟨l, hr⟩ := reachable_rep hb
  have hno : (b.root.isSome && decide (tr.hi < typ key)) = false := by
    have : ¬ tr.hi < key.1.type := by omega
    simp [typ, this]
  constructor
  · have hs' := (C14_findGreaterThan_partial b hb key tr).choose_spec.2 S cb s
    refine ⟨_, hs', ?_⟩
    simp only [Tree.findGreaterThanL]
    rw [findAboveL_spec hr.weak _ key tr cb s L]
    simp only [Tree.findGreaterThan] at hs'
    rw [hs', hno]; rfl
  · have hs' := (C14_findGreaterThanOrEqual_partial b hb key tr).choose_spec.2 S cb s
    refine ⟨_, hs', ?_⟩
    simp only [Tree.findGreaterThanOrEqualL]
    rw [findAboveL_spec hr.weak _ key tr cb s L]
    simp only [Tree.findGreaterThanOrEqual] at hs'
    rw [hs', hno]; rfl

/-- Non-vacuity: a lock-clean FindLessThan that is stopped in the middle of a tree of height two. -/
example : Reachable nine ∧
    (nine.findLessThanL (ki 7) ⟨9, 9⟩ (fun (n : Nat) _ _ => (n + 1, decide (n < 2))) 0 unlocked).map (fun r => (r.1, r.2 none)) = some (3, 0) :=
  ⟨built_reachable _, by decide +kernel⟩

/-! ## C17 – Empty -/

/-- C17 for histories whose creates succeed: Empty says whether no item is stored.  Missing: failed creates (next theorem). -/
theorem C17_empty_iff_partial (b : Tree Key V) (hb : Reachable b) : b.empty = true ↔ contents b = [] := by
  obtain ⟨l, hr⟩ := reachable_rep hb
  have hp := hr.weak.contents_perm
  simp only [Tree.empty, Option.isNone_iff_eq_none, hr.root_none]
  constructor
  · intro h; rw [h] at hp; exact hp.eq_nil
  · intro h; rw [h] at hp; exact hp.nil_eq.symm

/-- C17 is false of the code: after a failed create on an empty tree nothing is stored but Empty answers false. -/
theorem C17_violated_after_failed_create :
    ∃ (b b' : Tree Key Nat) (key : Key) (o : CreateOut Key Nat), Reachable b ∧ b.create key none = some (b', o) ∧
      contents b' = [] ∧ b'.empty = false :=
  ⟨built [], ⟨2, some (.mk [] [])⟩, ki 1, .created, built_reachable _, rfl, rfl, rfl⟩

example : Reachable (built (V := Nat) (creates [1, 2, 3] ++ [.delete (ki 1) none, .delete (ki 2) none, .delete (ki 3) none])) ∧
    (built (V := Nat) (creates [1, 2, 3] ++ [.delete (ki 1) none, .delete (ki 2) none, .delete (ki 3) none])).empty = true ∧
    Reachable nine ∧ nine.empty = false :=
  ⟨built_reachable _, by decide +kernel, built_reachable _, by decide +kernel⟩

end Willow.Props
