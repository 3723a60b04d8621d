import Verif.Proofs.AssocMore
import Verif.Props.BTree
set_option linter.unusedSimpArgs false
/-
Properties C18-C24: the associated tree (internal/datastructures/btree_associated) and the generation of key combinations.

Values of key-values are `Key` (well-formed, not NaN).  `AReachable t`: `t` is obtained from an empty associated tree by some
history of valid Create / CreateOrFind / Delete / DeleteByAssociatedID / DestroyByAssociatedID requests.
-/
namespace Willow.Props
open Assoc Spec BTree

variable {V : Type}

/-- Example key "a". -/
def sa : GoString := [97]
/-- Example key "b". -/
def sb : GoString := [98]
/-- Example key "c". -/
def sc : GoString := [99]

/-- The tree after a history of valid requests (no such history crashes: C19). -/
def assocBuilt (ops : List (AOp Key V)) : ATree Key V :=
  match assocRun ATree.new ops with
  | some r => r.1
  | none => ATree.new

theorem assocBuilt_reachable (ops : List (AOp Key V)) (h : ∀ op ∈ ops, op.Valid) : AReachable (assocBuilt ops) := by
  obtain ⟨t, outs, e, _⟩ := run_spec h (inv_new (K := Key) (V := V))
  exact ⟨ops, outs, h, by simp [assocBuilt, e]⟩

/-- Decidable validity of key-values, for the examples. -/
instance (kvs : KVs Key) : Decidable (ValidKVs kvs) := by unfold ValidKVs; infer_instance
instance (tr : TypeRestrictions) : Decidable (ValidTR tr) := by unfold ValidTR; infer_instance
instance (op : AOp Key V) : Decidable op.Valid := by unfold AOp.Valid; cases op <;> infer_instance

/-- The history of the examples. -/
def fourOps : List (AOp Key Nat) :=
  [.create [(sa, ki 1)] (some 10), .create [(sa, ki 1), (sb, ki 2)] (some 20), .create [(sb, ki 2), (sc, kany)] (some 30),
   .create [(sa, ki 5)] (some 40), .delete [(sa, ki 5)] none, .create [(sa, ku 5), (sb, ki 2), (sc, ki 0)] (some 50), .create [(sa, ki 9)] none]

/-- The tree of the examples: {a:1}, {a:1,b:2}, {b:2,c:any}, {a:uint8 5,b:2,c:0}. -/
def four : ATree Key Nat := assocBuilt fourOps

theorem four_reachable : AReachable four := assocBuilt_reachable fourOps (by decide +kernel)

/-! ## C18 – uniqueness -/

/-- C18.  At any time two different stored items have different key-values and different ids. -/
theorem C18_items_unique (t : ATree Key V) (ht : AReachable t) :
    (∀ i ∈ t.items, ∀ j ∈ t.items, sameKVs i.kvs j.kvs = true → i = j) ∧ (t.items.map (·.id)).Nodup ∧ ∀ i ∈ t.items, ValidKVs i.kvs :=
  have h := reachable_inv ht
  ⟨fun _ hi _ hj e => h.uniq hi hj e, h.ids, fun _ hi => h.valid hi⟩

/-- C18.  Creating key-values that are already stored fails and changes nothing: every later history has the same outcome. -/
theorem C18_create_existing_fails (t : ATree Key V) (ht : AReachable t) (kvs : KVs Key) (hv : ValidKVs kvs) (v : Option V)
    (i : Item Key V) (hi : i ∈ t.items) (hs : sameKVs kvs i.kvs = true) :
    ∃ t', t.create kvs v = (t', .exists_) ∧ t'.items = t.items ∧
      ∀ ops : List (AOp Key V), (∀ op ∈ ops, op.Valid) → (assocRun t' ops).map (fun r => (r.1.items, r.2)) = (assocRun t ops).map (fun r => (r.1.items, r.2)) := by
  have h := reachable_inv ht
  obtain ⟨h1, h2⟩ := h.insert hv v false
  have hf := find_same h hi hs hv
  simp only [storeStep, Bool.false_eq_true, if_false] at h2
  rw [hf] at h2
  simp only [Prod.mk.injEq, Store.mk.injEq] at h2
  obtain ⟨⟨e1, e2⟩, e3⟩ := h2
  refine ⟨(t.insert kvs v false).1, ?_, e1.symm, ?_⟩
  · have : (t.insert kvs v false).2 = .exists_ := by
      cases ho : (t.insert kvs v false).2 <;> rw [ho] at e3 <;> simp [seen] at e3
    unfold ATree.create
    rw [← this]
  · intro ops hops
    obtain ⟨ta, oa, ea, _, sa⟩ := run_spec hops h1
    obtain ⟨tb, ob, eb, _, sb⟩ := run_spec hops h
    rw [ea, eb]
    rw [← e1, ← e2, sb] at sa
    simp only [Prod.mk.injEq, Store.mk.injEq] at sa
    simp [sa.1.1, sa.2]

/-- C18.  Key-values that differ from all stored ones (in size, a key or a value) are stored as a new item. -/
theorem C18_different_sets_are_different_items (t : ATree Key V) (ht : AReachable t) (kvs : KVs Key) (hv : ValidKVs kvs) (v : V)
    (hd : ∀ i ∈ t.items, sameKVs kvs i.kvs = false) :
    ∃ t' id, t.create kvs (some v) = (t', .created id) ∧ t'.items = t.items ++ [⟨id, kvs, v⟩] ∧ ∀ i ∈ t.items, i.id ≠ id := by
  have h := reachable_inv ht
  obtain ⟨h1, h2⟩ := h.insert hv (some v) false
  have hf : t.items.find? (fun i => sameKVs kvs i.kvs) = none := by
    rw [List.find?_eq_none]; intro i hi; simp [hd i hi]
  simp only [storeStep, Bool.false_eq_true, if_false] at h2
  rw [hf] at h2
  simp only [Prod.mk.injEq, Store.mk.injEq] at h2
  obtain ⟨⟨e1, e2⟩, e3⟩ := h2
  refine ⟨(t.insert kvs (some v) false).1, t.next, ?_, e1.symm, ?_⟩
  · have : (t.insert kvs (some v) false).2 = .created t.next := by
      cases ho : (t.insert kvs (some v) false).2 <;> rw [ho] at e3 <;> simp [seen] at e3
      rw [e3]
    unfold ATree.create
    rw [← this]
  · intro i hi e
    have := h.fresh i hi
    omega

/-- Non-vacuity: the example tree holds four items, {a:1} is taken (also as the only pair), {a:2}, {b:1} and {a:uint8 1} are not. -/
example : four.items.map (·.value) = [10, 20, 30, 50] ∧
    [[(sa, ki 1)], [(sa, ki 2)], [(sb, ki 1)], [(sa, ku 1)]].map (fun kvs => four.items.any (fun i => sameKVs kvs i.kvs)) = [true, false, false, false] := by
  decide +kernel

/-! ## C19 – histories -/

/-- C19.  Every history of valid requests behaves as on a plain list of items: the service never panics, the clients see the
same answers and the stored items (and ids) are the same.  `storeStep` is the specification of one request. -/
theorem C19_associated_tree_is_map (ops : List (AOp Key V)) (hv : ∀ op ∈ ops, op.Valid) :
    ∃ t outs, assocRun ATree.new ops = some (t, outs) ∧ storeRun ⟨[], 0⟩ ops = (⟨t.items, t.next⟩, outs) := by
  obtain ⟨t, outs, e, _, s⟩ := run_spec hv (inv_new (K := Key) (V := V))
  exact ⟨t, outs, e, s⟩

/-- C19.  A failed create and a refused delete leave the stored items unchanged. -/
theorem C19_failures_change_nothing (t : ATree Key V) (ht : AReachable t) (kvs : KVs Key) (hv : ValidKVs kvs) (id : Nat) :
    (t.create kvs none).1.items = t.items ∧
    (∃ t' o, t.createOrFind kvs none = some (t', o) ∧ t'.items = t.items) ∧
    (t.delete kvs (some fun _ => false)).1.items = t.items ∧
    (∃ t' o, t.deleteById id (some fun _ => false) = some (t', o) ∧ t'.items = t.items) ∧
    (∃ t' o, t.destroyById id (some fun _ => false) = some (t', o) ∧ t'.items = t.items) := by
  have h := reachable_inv ht
  refine ⟨?_, ?_, ?_, ?_, ?_⟩
  · obtain ⟨t', o, e, _, s⟩ := step_spec h (op := .create kvs none) hv
    simp only [assocStep, Option.some.injEq, Prod.mk.injEq] at e
    rw [e.1]
    simp only [storeStep] at s
    split at s <;> simp only [Prod.mk.injEq, Store.mk.injEq] at s
    · exact s.1.1.symm
    · rename_i h; cases h
    · exact s.1.1.symm
  · obtain ⟨t', o, e, _, s⟩ := h.createOrFind hv none
    refine ⟨t', o, e, ?_⟩
    simp only [storeStep] at s
    split at s <;> simp only [Prod.mk.injEq, Store.mk.injEq] at s
    · exact s.1.1.symm
    · rename_i h; cases h
    · exact s.1.1.symm
  · obtain ⟨_, s⟩ := h.delete hv (some fun _ => false)
    simp only [storeStep, Store.remove] at s
    split at s
    · simp_all
    · rename_i hx; cases hx
    · rename_i hx; cases hx
      simp only [Bool.false_eq_true, if_false, Prod.mk.injEq, Store.mk.injEq] at s
      exact s.1.1.symm
  · obtain ⟨t', o, e, _, s⟩ := h.deleteById id (some fun _ => false)
    refine ⟨t', o, e, ?_⟩
    simp only [storeStep, Store.remove] at s
    split at s
    · simp_all
    · rename_i hx; cases hx
    · rename_i hx; cases hx
      simp only [Bool.false_eq_true, if_false, Prod.mk.injEq, Store.mk.injEq] at s
      exact s.1.1.symm
  · obtain ⟨t', o, e, _, s⟩ := h.destroyById id (some fun _ => false)
    refine ⟨t', o, e, ?_⟩
    simp only [storeStep, Store.remove] at s
    split at s
    · simp_all
    · rename_i hx; cases hx
    · rename_i hx; cases hx
      simp only [Bool.false_eq_true, if_false, Prod.mk.injEq, Store.mk.injEq] at s
      exact s.1.1.symm

/-- C19.  Destroying the whole tree, in any order of its items, removes exactly the items the callback approved before its first
refusal. -/
theorem C19_destroyTree {S : Type} (t : ATree Key V) (ht : AReachable t) (can : S → Item Key V → S × Bool) (s : S)
    (order : List (Item Key V)) (ho : order.Perm t.items) :
    ∃ t', t.destroyTree can order s = some (t', (approved can order s).2) ∧
      t'.items = t.items.filter (fun j => !((approved can order s).1.map (·.id)).contains j.id) := by
  have h := reachable_inv ht
  obtain ⟨t', e, _, _, hi⟩ := destroyTree_spec can order t s h ((ho.nodup_iff).2 (nodup_of_ids h.ids)) (fun i hi => ho.mem_iff.1 hi)
  exact ⟨t', e, hi⟩

/-- A remark on C19: a CreateOrFind whose callback fails stores nothing, but still answers with a (new, unused) id and no error;
`Create` answers with the empty id. -/
theorem C19_failed_createOrFind_still_returns_an_id :
    ∃ t' id, (ATree.new : ATree Key Nat).createOrFind [(sa, ki 1)] none = some (t', .failed (some id)) ∧ t'.items = [] :=
  ⟨_, 0, rfl, rfl⟩

/-- Non-vacuity: the requests of the example history are valid; what the clients see. -/
example : (∀ op ∈ fourOps, op.Valid) ∧
    ((assocRun ATree.new (fourOps ++ [.createOrFind [(sb, ki 2), (sa, ki 1)] (some 0), .deleteById 2 (some fun i => i.value == 30)])).map
      (fun r => (r.1.items.map (·.id), r.2.length))) = some ([0, 1, 4], 9) := by decide +kernel

/-! ## C20 – queries -/

/-- C20, for queries outside the reported deviations: a valid query in which every sub-query asks for something, no index search has
two NotEquals comparisons, and the compared value of `<`/`<=` (`>`/`>=`) is not of a type above the maximum (below the minimum)
of its type restriction.  Such a query never panics and visits exactly the stored items that satisfy it, each once.
Missing for the full C20: the other valid queries, for which the claim is false (next theorems). -/
theorem C20_query_partial (t : ATree Key V) (ht : AReachable t) (q : Query Key)
    (hq : everywhere (fun s => ValidSel s ∧ SelExact s) Asks q) (ha : IsEmptyQuery q ∨ Asks q) :
    ∃ l, t.queryAction q = some l ∧ l.Perm (t.items.filter (satisfies q)) :=
  queryAction_spec (reachable_inv ht) hq ha

/-- A selection on two keys with NotEquals. -/
def twoNotEquals : Query Key :=
  .mk (some { kvs := [(sa, ⟨ki 1, .ne, ⟨9, 9⟩⟩), (sb, ⟨ki 2, .ne, ⟨9, 9⟩⟩)] }) [] [] true

/-- C20 is false of the code: with two NotEquals comparisons in one selection, an item is excluded only if it equals *both* values.
`a != 1 and b != 2` also visits {a:1} and {b:2, c:any}. -/
theorem C20_violated_two_not_equals :
    ValidQuery twoNotEquals ∧ (four.queryAction twoNotEquals).map (fun l => l.map (·.value)) = some [10, 50, 30] ∧
      (four.items.filter (satisfies twoNotEquals)).map (·.value) = [] := by
  refine ⟨?_, by decide +kernel, by decide +kernel⟩
  simp only [ValidQuery, twoNotEquals, everywhere, everywhereL, and_true, Option.some.injEq]
  rintro s rfl
  refine ⟨by decide +kernel, ?_, .inr (.inl (by simp))⟩
  simp [ValidVQ, ValidTR, DataType.isGeneral, DataType.isAny]
  decide +kernel

/-- `a < 100` restricted to 8 bit unsigned values. -/
def restrictedLess : Query Key := .mk (some { kvs := [(sa, ⟨ki 100, .lt, ⟨1, 1⟩⟩)] }) [] [] true

/-- C20 is false of the code: the maximum type of a `<` restriction is ignored, the query also visits {a: int64 1}. -/
theorem C20_violated_type_restriction :
    ValidQuery restrictedLess ∧ (four.queryAction restrictedLess).map (fun l => l.map (·.value)) = some [10, 20, 50] ∧
      (four.items.filter (satisfies restrictedLess)).map (·.value) = [50] := by
  refine ⟨?_, by decide +kernel, by decide +kernel⟩
  simp only [ValidQuery, restrictedLess, everywhere, everywhereL, and_true, Option.some.injEq]
  rintro s rfl
  refine ⟨by decide +kernel, ?_, .inr (.inl (by simp))⟩
  simp [ValidVQ, ValidTR, DataType.isGeneral, DataType.isAny]
  decide +kernel

/-- C20 is false of the code: a valid query that contains an empty sub-query (or the query `{"And":[]}`) panics instead of
selecting everything. -/
theorem C20_violated_empty_subquery_panics (t : ATree Key V) :
    ValidQuery (.mk none [] [.mk none [] [] true] true : Query Key) ∧ ValidQuery (.mk none [] [] false : Query Key) ∧
    t.queryAction (.mk none [] [.mk none [] [] true] true) = none ∧ t.queryAction (.mk none [] [] false) = none := by
  refine ⟨?_, ?_, rfl, rfl⟩ <;> simp [ValidQuery, everywhere, everywhereL]

/-- A nested query with all kinds of comparisons, ids and size bounds. -/
def nested : Query Key :=
  .mk (some { kvs := [(sa, ⟨ki 1, .ge, ⟨1, 1024⟩⟩), (sc, ⟨kany, .ne, ⟨1, 1024⟩⟩)], max := some 2 })
    [.mk (some { kvs := [(sc, ⟨ki 0, .eq, ⟨1, 1024⟩⟩)], min := some 3 }) [] [] true]
    [.mk (some { ids := [0, 1, 2] }) [] [] true] true

/-- Non-vacuity of C20_query_partial. -/
example : everywhere (fun s => ValidSel s ∧ SelExact s) Asks nested ∧ Asks nested ∧
    (four.items.filter (satisfies nested)).map (·.value) = [10, 20, 50] ∧
    (four.queryAction nested).map (fun l => l.map (·.value)) = some [10, 20, 50] := by
  refine ⟨?_, by simp [nested, Asks], by decide +kernel, by decide +kernel⟩
  have hne : ∀ k : GoString, [k] ≠ [] := by simp
  simp only [nested, everywhere, everywhereL, Asks, Option.isSome_some, true_or, true_and, and_true, Option.some.injEq]
  refine ⟨?_, ?_, ?_⟩
  · rintro s rfl
    refine ⟨⟨by decide +kernel, ?_, by simp⟩, .inr ⟨?_, ?_⟩⟩
    · simp [ValidVQ, ValidTR, DataType.isGeneral, DataType.isAny]; decide +kernel
    · simp [TrOk]; decide +kernel
    · intro kq h1 kq' h2 c1 c2
      simp at h1 h2
      rcases h1 with rfl | rfl <;> rcases h2 with rfl | rfl <;> simp_all
  · rintro s rfl
    refine ⟨⟨by decide +kernel, ?_, by simp⟩, .inr ⟨?_, ?_⟩⟩
    · simp [ValidVQ, ValidTR, DataType.isGeneral, DataType.isAny]; decide +kernel
    · simp [TrOk]
    · intro kq h1 kq' h2 c1 c2
      simp at h1 h2
      rw [h1, h2]
  · rintro s rfl
    exact ⟨⟨by simp, by simp, by simp⟩, .inl (by simp)⟩

/-- The link to the ordered tree: what an index search visits (`treeSelects`, used by the model of queries and matches) is what the
B-tree of values visits with the corresponding find. -/
theorem C20_index_search_is_tree_find (b : Tree Key V) (hb : Reachable b) (q : Key) (tr : TypeRestrictions) :
    let found (t : Traversal Key V) := t (List V) (fun s _ v => (s ++ [v], true)) []
    let expected (c : Cmp) := ((contents b).filter (fun kv => treeSelects c q tr kv.1)).map (·.2)
    (∃ l, found (fun _ cb s => b.find q tr cb s) = some l ∧ l.Perm (expected .eq)) ∧
    (∃ l, found (fun _ cb s => b.find q tr cb s) = some l ∧ l.Perm (expected .ne)) ∧
    (∃ l, found (fun _ cb s => b.findLessThan q tr cb s) = some l ∧ l.Perm (expected .lt)) ∧
    (isAny q = false → ∃ l, found (fun _ cb s => b.findLessThanOrEqual q tr cb s) = some l ∧ l.Perm (expected .le)) ∧
    (∃ l, found (fun _ cb s => b.findGreaterThan q tr cb s) = some l ∧ l.Perm (expected .gt)) ∧
    (∃ l, found (fun _ cb s => b.findGreaterThanOrEqual q tr cb s) = some l ∧ l.Perm (expected .ge)) := by
  have key : ∀ (t : Traversal Key V) (items : List (Key × V)), Visits t items →
      ∃ l, t (List V) (fun s _ v => (s ++ [v], true)) [] = some l ∧ l.Perm (items.map (·.2)) := by
    rintro t items ⟨order, hp, ht⟩
    refine ⟨_, ht _ _ _, ?_⟩
    have hv : ∀ (o : List (Key × V)) (s : List V), (visitAll (fun s _ v => (s ++ [v], true)) o s).1 = s ++ o.map (·.2) := by
      intro o
      induction o with
      | nil => intro s; simp [visitAll]
      | cons x o ih => intro s; simp [visitAll, ih]
    rw [hv, List.nil_append]; exact hp.map _
  have hfind : ∃ l, b.find q tr (S := List V) (fun s _ v => (s ++ [v], true)) [] = some l ∧
      l.Perm (((contents b).filter (fun kv => treeSelects .eq q tr kv.1)).map (·.2)) := by
    cases hk : isAny q with
    | false =>
      obtain ⟨l, h1, h2⟩ := key _ _ (C11_find_concrete b hb q hk tr)
      refine ⟨l, h1, h2.trans ?_⟩
      rw [List.map_map]
      have : ((contents b).filter (fun kv => treeSelects .eq q tr kv.1)) = (contents b).filter (fun kv => (same kv.1 q && within tr q) || (isAny kv.1 && decide (tr.hi = DataType.any))) := by
        apply List.filter_congr
        intro kv _
        have hq : KeyOps.typ q ≠ DataType.any := of_decide_eq_false hk
        simp only [treeSelects, hq, if_false]
        rw [inRange_eq_inside]
        rfl
      rw [this]; exact .refl _
    | true =>
      obtain ⟨l, h1, h2⟩ := key _ _ (C11_find_any b hb q hk tr)
      refine ⟨l, h1, h2.trans ?_⟩
      have : ((contents b).filter (fun kv => treeSelects .eq q tr kv.1)) = (contents b).filter (fun kv => within tr kv.1) := by
        apply List.filter_congr
        intro kv _
        have hq : KeyOps.typ q = DataType.any := of_decide_eq_true hk
        simp only [treeSelects, hq, if_true]
        exact inRange_eq_inside tr kv.1
      rw [this]
  refine ⟨hfind, hfind, ?_, ?_, ?_, ?_⟩
  · exact key _ _ (C13_findLessThan_partial b hb q tr)
  · intro hk; exact key _ _ (C13_findLessThanOrEqual_partial b hb q hk tr)
  · exact key _ _ (C14_findGreaterThan_partial b hb q tr)
  · exact key _ _ (C14_findGreaterThanOrEqual_partial b hb q tr)

/-! ## C21 – the two evaluators -/

/-- C21, for queries without ids and without "only Or" (sub-)queries, and outside the deviations of C20: the predicate used for a new
channel answers like a query on a store that holds only these key-values.  Missing: the other queries, for which it is false. -/
theorem C21_evaluators_agree_partial (t : ATree Key V) (ht : AReachable t) (i : Item Key V) (hi : t.items = [i]) (q : Query Key)
    (hq : everywhere (fun s => ValidSel s ∧ SelExact s) Asks q) (ha : IsEmptyQuery q ∨ Asks q)
    (hids : everywhere (fun s => s.ids = []) (fun _ => True) q) (hor : everywhere (fun _ => True) NotOnlyOrs q) (hor' : NotOnlyOrs q) :
    t.queryAction q = some (if Query.matchTags i.kvs q then [i] else []) := by
  obtain ⟨l, e, hp⟩ := queryAction_spec (reachable_inv ht) hq ha
  rw [e, hi] at *
  have h1 : everywhere ValidSel NotOnlyOrs q := by
    have : ∀ (P P' : Selection Key → Prop) (Q Q' : Query Key → Prop), (∀ q, everywhere P Q q → everywhere P' Q' q → everywhere P Q' q) ∧
        (∀ qs, everywhereL P Q qs → everywhereL P' Q' qs → everywhereL P Q' qs) := by
      intro P P' Q Q'
      have hA : ∀ n : Nat, (∀ q : Query Key, sizeOf q < n → everywhere P Q q → everywhere P' Q' q → everywhere P Q' q) ∧
          (∀ qs : List (Query Key), sizeOf qs < n → everywhereL P Q qs → everywhereL P' Q' qs → everywhereL P Q' qs) := by
        intro n
        induction n with
        | zero => exact ⟨fun q h => absurd h (by omega), fun q h => absurd h (by omega)⟩
        | succ n ih =>
          constructor
          · rintro ⟨sel, or, and, nl⟩ hn h1 h2
            simp only [everywhere] at h1 h2 ⊢
            simp only [Query.mk.sizeOf_spec] at hn
            exact ⟨h1.1, ih.2 or (by omega) h1.2.1 h2.2.1, ih.2 and (by omega) h1.2.2 h2.2.2⟩
          · intro qs hn h1 h2
            cases qs with
            | nil => trivial
            | cons q qs =>
              simp only [everywhereL] at h1 h2 ⊢
              simp only [List.cons.sizeOf_spec] at hn
              exact ⟨h2.1, ih.1 q (by omega) h1.2.1 h2.2.1, ih.2 qs (by omega) h1.2.2 h2.2.2⟩
      exact ⟨fun q => (hA (sizeOf q + 1)).1 q (by omega), fun qs => (hA (sizeOf qs + 1)).2 qs (by omega)⟩
    exact (this _ _ _ _).1 q (everywhere_imp (fun s h => h.1) (fun _ _ => trivial) q hq : everywhere ValidSel (fun _ => True) q) hor
  have h2 : satisfies q i = Query.matchTags i.kvs q := by
    rw [matchTags_holds q h1 hor']
    exact queryHolds_noIds (by simp) q hids
  simp only [List.filter_cons, h2, List.filter_nil] at hp
  cases hm : Query.matchTags i.kvs q <;> simp only [hm, Bool.false_eq_true, if_false, if_true] at hp ⊢
  · rw [List.perm_nil.1 hp]
  · rw [List.perm_singleton.1 hp]

/-- C21 is false of the code for a query with only Ors: `{Or: [a = 1]}` matches every new channel, but the store query does not
return a channel {b: 2}. -/
theorem C21_violated_only_ors :
    let q : Query Key := .mk none [.mk (some { kvs := [(sa, ⟨ki 1, .eq, ⟨9, 9⟩⟩)] }) [] [] true] [] true
    let t := assocBuilt [.create [(sb, ki 2)] (some 7)]
    ValidQuery q ∧ Query.matchTags [(sb, ki 2)] q = true ∧ (t.queryAction q).map (fun l => l.map (·.value)) = some [] := by
  refine ⟨?_, by decide +kernel, by decide +kernel⟩
  simp only [ValidQuery, everywhere, everywhereL, and_true, Option.some.injEq, true_and]
  refine ⟨by simp, ?_⟩
  rintro s rfl
  refine ⟨by decide +kernel, ?_, .inr (.inl (by simp))⟩
  simp [ValidVQ, ValidTR, DataType.isGeneral, DataType.isAny]
  decide +kernel

/-- C21 is false of the code for a query by ids: the ids are ignored for a new channel. -/
theorem C21_violated_ids_ignored :
    let q : Query Key := .mk (some { ids := [17] }) [] [] true
    let t := assocBuilt [.create [(sb, ki 2)] (some 7)]
    ValidQuery q ∧ Query.matchTags [(sb, ki 2)] q = true ∧ (t.queryAction q).map (fun l => l.map (·.value)) = some [] := by
  refine ⟨?_, by decide +kernel, by decide +kernel⟩
  simp only [ValidQuery, everywhere, everywhereL, and_true, Option.some.injEq, true_and]
  rintro s rfl
  exact ⟨by simp, by simp, .inl (by simp)⟩

/-- Non-vacuity of C21: `a >= 1 and (c != any or c = 0 with at least 3 pairs)`, on two stores with one item. -/
example : let q : Query Key := .mk (some { kvs := [(sa, ⟨ki 1, .ge, ⟨1, 1024⟩⟩)] }) [] [.mk (some { kvs := [(sc, ⟨kany, .ne, ⟨1, 1024⟩⟩)] })
      [.mk (some { kvs := [(sc, ⟨ki 0, .eq, ⟨1, 1024⟩⟩)], min := some 3 }) [] [] true] [] true] true
    NotOnlyOrs q ∧ [[(sa, ki 1)], [(sa, ki 1), (sc, ki 0)], [(sa, ki 1), (sb, ki 1), (sc, ki 0)]].map (fun kvs => Query.matchTags kvs q) = [true, false, true] ∧
    [[(sa, ki 1)], [(sa, ki 1), (sc, ki 0)], [(sa, ki 1), (sb, ki 1), (sc, ki 0)]].map
      (fun kvs => ((assocBuilt [.create kvs (some 1)]).queryAction q).map (fun l => l.map (·.value))) = [some [1], some [], some [1]] := by
  refine ⟨.inl rfl, by decide +kernel, by decide +kernel⟩

/-! ## C22 – matches -/

/-- C22, when the bounds are consistent (minimum at most maximum, or no maximum): a match never panics and visits exactly the stored
items covered by the request, each once, whatever the iteration order of the map of found keys.
Missing: inconsistent bounds, which validation accepts (next theorem). -/
theorem C22_match_partial (t : ATree Key V) (ht : AReachable t) (mq : MatchQuery Key) (hv : ValidMatch mq)
    (hb : mq.min.getD 0 ≤ mq.max.getD (-1) ∨ mq.max.getD (-1) = -1)
    (shuffle : List GoString → List GoString) (hs : ∀ l, (shuffle l).Perm l) :
    ∃ l, t.matchAction shuffle mq = some l ∧ l.Perm (t.items.filter (fun i => covered mq i.kvs)) := by
  rcases matchAction_spec (reachable_inv ht) hv hs with ⟨l, e, _, hp⟩ | ⟨_, h1, h2⟩
  · exact ⟨l, e, hp⟩
  · omega

/-- C22 is false of the code: for every tree, a request whose minimum exceeds its (explicit) maximum passes validation and panics
instead of visiting nothing. -/
theorem C22_violated_inconsistent_bounds_panic (t : ATree Key V) (ht : AReachable t) (mq : MatchQuery Key) (hv : ValidMatch mq)
    (hb : mq.min.getD 0 > mq.max.getD (-1) ∧ mq.max.getD (-1) ≠ -1) (shuffle : List GoString → List GoString) (hs : ∀ l, (shuffle l).Perm l) :
    t.matchAction shuffle mq = none := by
  rcases matchAction_spec (reachable_inv ht) hv hs with ⟨l, _, hn, _⟩ | ⟨e, _⟩
  · exact absurd hb hn
  · exact e

/-- The match request of the examples: a = 1 or any, b = 2, c = any value. -/
def someMatch (min max : Option Int) : MatchQuery Key := ⟨[(sa, ⟨ki 1, ⟨9, 1024⟩⟩), (sb, ⟨ki 2, ⟨9, 9⟩⟩), (sc, ⟨kany, ⟨1, 1024⟩⟩)], min, max⟩

/-- Non-vacuity of both: bounds 2..3, and the panic with bounds 3..2. -/
example : ValidMatch (someMatch (some 2) (some 3)) ∧ ValidMatch (someMatch (some 3) (some 2)) ∧
    (four.matchAction id (someMatch none none)).map (fun l => l.map (·.value)) = some [10, 20, 30] ∧
    (four.matchAction List.reverse (someMatch (some 2) (some 3))).map (fun l => l.map (·.value)) = some [20, 30] ∧
    (four.matchAction id (someMatch (some 3) (some 2))).map (fun l => l.map (·.value)) = none := by
  refine ⟨⟨by simp [someMatch], by decide +kernel, ?_⟩, ⟨by simp [someMatch], by decide +kernel, ?_⟩, by decide +kernel, by decide +kernel, by decide +kernel⟩ <;>
  (intro r hr; simp only [someMatch, List.mem_cons, List.not_mem_nil, or_false] at hr; rcases hr with rfl | rfl | rfl <;> decide +kernel)

/-! ## C23 – the index -/

/-- C23.  In every reachable tree: an id listed in the index under a key, value and size belongs to a stored item of that size with
that pair; every stored item is listed under all its pairs; no id is listed twice; and there is no key entry without values and
no value entry without ids (nor with a trailing empty list). -/
theorem C23_index_exact (t : ATree Key V) (ht : AReachable t) :
    (∀ kvs ∈ t.keys, kvs.2 ≠ [] ∧ ∀ vn ∈ kvs.2, vn.2 ≠ [] ∧ vn.2.getLast? ≠ some [] ∧
      ∀ n ids, vn.2[n]? = some ids → ids.Nodup ∧ ∀ id, id ∈ ids ↔
        ∃ i ∈ t.items, i.id = id ∧ i.kvs.length = n + 1 ∧ ∃ v, valueOf i.kvs kvs.1 = some v ∧ same v vn.1 = true) ∧
    (∀ i ∈ t.items, ∀ kv ∈ i.kvs, ∃ e ∈ t.keys, e.1 = kv.1 ∧ ∃ vn ∈ e.2, same kv.2 vn.1 = true ∧ i.id ∈ vn.2.getD (i.kvs.length - 1) []) := by
  have h := reachable_inv ht
  have hmem : ∀ k v n id, id ∈ idsOf t.keys k v n ↔ ∃ i ∈ t.items, i.id = id ∧ i.kvs.length = n + 1 ∧ ∃ w, valueOf i.kvs k = some w ∧ same w v = true := by
    intro k v n id
    rw [h.ix.mem]
    constructor
    · rintro ⟨e, he, h1, h2, h3⟩
      obtain ⟨i, hi, rfl⟩ := List.mem_map.1 he
      obtain ⟨y, hy, rfl, hyv⟩ := hasKV_iff.1 h3
      exact ⟨i, hi, h1, h2, y.2, valueOf_of_mem (h.valid hi).2 hy, hyv⟩
    · rintro ⟨i, hi, h1, h2, w, hw, hs⟩
      exact ⟨(i.id, i.kvs), List.mem_map.2 ⟨i, hi, rfl⟩, h1, h2, hasKV_iff.2 ⟨_, valueOf_mem hw, rfl, hs⟩⟩
  constructor
  · rintro ⟨k, vs⟩ hk
    refine ⟨h.ix.wf.ne _ hk, ?_⟩
    rintro ⟨v, nd⟩ hvn
    have hnd : t.keys.node k v = some nd := by
      unfold Index.node
      rw [alookup_of_mem seq_equiv h.ix.wf.keys hk]
      exact alookup_of_mem veq_equiv (h.ix.wf.vals _ hk) hvn
    obtain ⟨c1, c2⟩ := h.ix.clean k v nd hnd
    refine ⟨c1, c2, ?_⟩
    intro n ids hids
    have he : idsOf t.keys k v n = ids := by
      unfold idsOf; rw [hnd]; simp [List.getD_eq_getElem?_getD, hids]
    rw [← he]
    exact ⟨h.ix.nodup k v n, hmem k v n⟩
  · intro i hi kv hkv
    have hpos : 0 < i.kvs.length := List.length_pos_iff.2 (List.ne_nil_of_mem hkv)
    have := (hmem kv.1 kv.2 (i.kvs.length - 1) i.id).2 ⟨i, hi, rfl, by omega, kv.2, valueOf_of_mem (h.valid hi).2 hkv, keq_refl _⟩
    unfold idsOf Index.node at this
    cases hl : alookup seq kv.1 t.keys with
    | none => rw [hl] at this; simp at this
    | some vs =>
      rw [hl] at this; simp only [Option.bind_some] at this
      cases hl2 : alookup veq kv.2 vs with
      | none => rw [hl2] at this; simp at this
      | some nd =>
        rw [hl2] at this; simp only [Option.getD_some] at this
        obtain ⟨k', hm', hk'⟩ := alookup_mem hl
        obtain ⟨v', hm2, hv2⟩ := alookup_mem hl2
        simp [seq] at hk'
        exact ⟨(k', vs), hm', hk', (v', nd), hm2, by rw [← keq_eq_same, keq_comm]; exact hv2, this⟩

/-- C23.  A tree without items has an empty index. -/
theorem C23_no_items_no_index (t : ATree Key V) (ht : AReachable t) (he : t.items = []) : t.keys = [] := by
  have h := (C23_index_exact t ht).1
  cases hk : t.keys with
  | nil => rfl
  | cons e es =>
    rw [hk] at h
    obtain ⟨h1, h2⟩ := h e (by simp)
    obtain ⟨vn, hvn⟩ := List.exists_mem_of_ne_nil _ h1
    obtain ⟨n1, n2, n3⟩ := h2 vn hvn
    cases hl : vn.2.getLast? with
    | none => exact absurd (List.getLast?_eq_none_iff.1 hl) n1
    | some ids =>
      rw [hl] at n2
      obtain ⟨_, hi⟩ := n3 (vn.2.length - 1) ids (by rw [← List.getLast?_eq_getElem?]; exact hl)
      have hne : ids ≠ [] := fun e => n2 (by rw [e])
      obtain ⟨id, hid⟩ := List.exists_mem_of_ne_nil _ hne
      obtain ⟨i, hi', _⟩ := (hi id).1 hid
      rw [he] at hi'; cases hi'

/-- Non-vacuity: the index of the example tree has three keys with 2, 1 and 2 values; after deleting everything it is empty. -/
example : four.keys.map (fun e => (e.1, e.2.length)) = [(sa, 2), (sb, 1), (sc, 2)] ∧
    ((assocRun four [.delete [(sa, ki 1)] none, .deleteById 1 none, .destroyById 2 none, .deleteById 4 none]).map (fun r => r.1.keys.length)) = some 0 := by
  decide +kernel

/-! ## C24 – key combinations -/

/-- C24.  For distinct keys and consistent bounds, the generator returns every non-empty sub-collection (as a sublist of the keys) whose
size lies within the bounds (-1: no maximum) and nothing else, each exactly once, ordered by size. -/
theorem C24_permutations (keys : List GoString) (hk : keys.Nodup) (min max : Int) (hb : min ≤ max ∨ max = -1) :
    ∃ groups, genPermutations keys min max = some groups ∧ groups.Nodup ∧
      (∀ g, g ∈ groups ↔ g ≠ [] ∧ g.Sublist keys ∧ min ≤ g.length ∧ (max = -1 ∨ (g.length : Int) ≤ max)) ∧
      groups.Pairwise (fun a b => a.length ≤ b.length) := by
  unfold genPermutations
  rw [if_neg (by omega)]
  refine ⟨_, rfl, stableSort_perm.nodup_iff.2 (nodup_genPairs hk), ?_, (sorted_groups _).imp groupLe_length⟩
  intro g
  rw [stableSort_perm.mem_iff, mem_genPairs]
  simp only [sizeOk, Bool.and_eq_true, Bool.or_eq_true, decide_eq_true_eq]
  constructor
  · rintro ⟨h1, h2, h3, h4⟩; exact ⟨h1, h2, h3, h4.symm⟩
  · rintro ⟨h1, h2, h3, h4⟩; exact ⟨h1, h2, h3, h4.symm⟩

/-- C24.  Inconsistent bounds are an error. -/
theorem C24_inconsistent_bounds (keys : List GoString) (min max : Int) (hb : min > max ∧ max ≠ -1) : genPermutations keys min max = none := by
  unfold genPermutations; rw [if_pos hb]

/-- Non-vacuity: three keys. -/
example : [sc, sa, sb].Nodup ∧ genPermutations [sc, sa, sb] 1 (-1) = some [[sa], [sb], [sc], [sa, sb], [sc, sa], [sc, sb], [sc, sa, sb]] ∧
    genPermutations [sc, sa, sb] 2 2 = some [[sa, sb], [sc, sa], [sc, sb]] := by decide +kernel

end Willow.Props
