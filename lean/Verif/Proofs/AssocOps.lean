import Verif.Proofs.AssocIndex
/-! The operations of the associated tree agree with the plain store. -/
namespace Willow.Assoc
open KeyOps BTree Spec

variable {K V : Type}

/-- (id, key-values) of the items. -/
def entsOf (l : List (Item K V)) : List (Nat × KVs K) := l.map (fun i => (i.id, i.kvs))

section
variable [LawfulKey K]

/-- The invariant of the associated tree. -/
structure Inv (t : ATree K V) : Prop where
  ix : IxInv t.keys (entsOf t.items)
  fresh : ∀ i ∈ t.items, i.id < t.next

theorem inv_new : Inv (ATree.new : ATree K V) := by
  refine ⟨⟨⟨by simp [Uniq, ATree.new], by simp [ATree.new], by simp [ATree.new]⟩, ?_, ?_, ?_, ?_, ?_, ?_⟩, by simp [ATree.new]⟩ <;>
    simp [ATree.new, entsOf, Index.node, idsOf]

theorem Inv.ids {t : ATree K V} (h : Inv t) : (t.items.map (·.id)).Nodup := by
  have := h.ix.ids; simpa [entsOf, Function.comp_def] using this

theorem Inv.valid {t : ATree K V} (h : Inv t) {i : Item K V} (hi : i ∈ t.items) : ValidKVs i.kvs :=
  h.ix.valid (i.id, i.kvs) (List.mem_map.2 ⟨i, hi, rfl⟩)

omit [LawfulKey K] in
theorem item_eq {l : List (Item K V)} (nd : (l.map (·.id)).Nodup) {x y : Item K V} (hx : x ∈ l) (hy : y ∈ l) (e : x.id = y.id) : x = y := by
  induction l with
  | nil => cases hx
  | cons z a ih =>
    simp only [List.map_cons, List.nodup_cons, List.mem_map, not_exists, not_and] at nd
    rcases List.mem_cons.1 hx with h1 | h1 <;> rcases List.mem_cons.1 hy with h2 | h2
    · exact h1.trans h2.symm
    · subst h1; exact absurd e.symm (nd.1 y h2)
    · subst h2; exact absurd e (nd.1 x h1)
    · exact ih nd.2 h1 h2

theorem Inv.item_eq {t : ATree K V} (h : Inv t) {x y : Item K V} (hx : x ∈ t.items) (hy : y ∈ t.items) (e : x.id = y.id) : x = y :=
  Assoc.item_eq h.ids hx hy e

theorem Inv.uniq {t : ATree K V} (h : Inv t) {x y : Item K V} (hx : x ∈ t.items) (hy : y ∈ t.items) (e : sameKVs x.kvs y.kvs = true) : x = y :=
  h.item_eq hx hy (h.ix.uniq (x.id, x.kvs) (List.mem_map.2 ⟨x, hx, rfl⟩) (y.id, y.kvs) (List.mem_map.2 ⟨y, hy, rfl⟩) e)

theorem Inv.itemById {t : ATree K V} (h : Inv t) {i : Item K V} (hi : i ∈ t.items) : t.itemById i.id = some i := by
  unfold ATree.itemById
  have hs : (t.items.find? (fun j => j.id == i.id)).isSome := by simp; exact ⟨i, hi, rfl⟩
  obtain ⟨j, hj⟩ := Option.isSome_iff_exists.1 hs
  rw [hj]
  have hm := List.mem_of_find?_eq_some hj
  have he := List.find?_some hj
  simp at he
  rw [h.item_eq hm hi he]

omit [LawfulKey K] in
theorem itemById_some {t : ATree K V} {id : Nat} {i : Item K V} (h : t.itemById id = some i) : i ∈ t.items ∧ i.id = id := by
  unfold ATree.itemById at h
  exact ⟨List.mem_of_find?_eq_some h, by simpa using List.find?_some h⟩

omit [LawfulKey K] in
theorem entsOf_filter {l : List (Item K V)} {id : Nat} : (entsOf l).filter (fun x => x.1 != id) = entsOf (l.filter (fun i => i.id != id)) := by
  simp [entsOf, List.filter_map, Function.comp_def]

theorem find_same {t : ATree K V} (h : Inv t) {kvs : KVs K} {i : Item K V} (hi : i ∈ t.items) (hs : sameKVs kvs i.kvs = true) (hv : ValidKVs kvs) :
    t.items.find? (fun i => sameKVs kvs i.kvs) = some i := by
  have hsome : (t.items.find? (fun i => sameKVs kvs i.kvs)).isSome := by simp; exact ⟨i, hi, hs⟩
  obtain ⟨j, hj⟩ := Option.isSome_iff_exists.1 hsome
  rw [hj]
  have hm := List.mem_of_find?_eq_some hj
  have he := List.find?_some hj
  have := h.uniq hm hi (sameKVs_trans (sameKVs_symm hv (h.valid hm) he) hs)
  rw [this]

/-! ### Index folds -/

theorem nodes_all {ix : Index K} {kvs : KVs K} (h : ∀ kv ∈ kvs, ∃ nd, ix.node kv.1 kv.2 = some nd) :
    (kvs.filterMap (fun kv => ix.node kv.1 kv.2)).length = kvs.length := by
  induction kvs with
  | nil => rfl
  | cons kv kvs ih =>
    obtain ⟨nd, hnd⟩ := h kv (by simp)
    rw [List.filterMap_cons_some (f := fun kv : GoString × K => ix.node kv.1 kv.2) hnd]; simp [ih (fun kv hkv => h kv (by simp [hkv]))]

omit [LawfulKey K] in
theorem nodes_some [KeyOps K] {ix : Index K} {kvs : KVs K} (h : (kvs.filterMap (fun kv => ix.node kv.1 kv.2)).length = kvs.length) :
    ∀ kv ∈ kvs, ∃ nd, ix.node kv.1 kv.2 = some nd := by
  induction kvs with
  | nil => simp
  | cons kv kvs ih =>
    cases hnd : ix.node kv.1 kv.2 with
    | none =>
      rw [List.filterMap_cons_none (f := fun kv : GoString × K => ix.node kv.1 kv.2) hnd] at h
      have := List.length_filterMap_le (fun kv : GoString × K => ix.node kv.1 kv.2) kvs
      simp at h; omega
    | some nd =>
      rw [List.filterMap_cons_some (f := fun kv : GoString × K => ix.node kv.1 kv.2) hnd] at h
      intro x hx
      rcases List.mem_cons.1 hx with rfl | hx
      · exact ⟨nd, hnd⟩
      · exact ih (by simpa using h) x hx

theorem all_nodes_iff {ix : Index K} {kvs : KVs K} (h : ∀ kv ∈ kvs, ∃ nd, ix.node kv.1 kv.2 = some nd) {n x : Nat} :
    (∀ nd ∈ kvs.filterMap (fun kv => ix.node kv.1 kv.2), x ∈ nd.getD n []) ↔ ∀ kv ∈ kvs, x ∈ idsOf ix kv.1 kv.2 n := by
  constructor
  · intro ha kv hkv
    obtain ⟨nd, hnd⟩ := h kv hkv
    unfold idsOf; rw [hnd]; exact ha nd (List.mem_filterMap.2 ⟨kv, hkv, hnd⟩)
  · intro ha nd hm
    obtain ⟨kv, hkv, hnd⟩ := List.mem_filterMap.1 hm
    have := ha kv hkv
    unfold idsOf at this; rw [hnd] at this; exact this

/-- The candidates found from an index whose ids are those of `ix`. -/
theorem candidates {ix ix1 : Index K} {ents : List (Nat × KVs K)} (h : IxInv ix ents) {kvs : KVs K} (hv : ValidKVs kvs)
    (hn : ∀ kv ∈ kvs, ∃ nd, ix1.node kv.1 kv.2 = some nd) (hi : ∀ k v n, idsOf ix1 k v n = idsOf ix k v n) :
    ((kvs.filterMap (fun kv => ix1.node kv.1 kv.2)).foldl (candidateStep kvs.length) none = some [] ∧ ∀ e ∈ ents, sameKVs kvs e.2 = false) ∨
    ∃ e ∈ ents, (kvs.filterMap (fun kv => ix1.node kv.1 kv.2)).foldl (candidateStep kvs.length) none = some [e.1] ∧ sameKVs kvs e.2 = true := by
  have hlen : 0 < kvs.length := List.length_pos_iff.2 hv.1
  have hne : kvs.filterMap (fun kv => ix1.node kv.1 kv.2) ≠ [] := by
    intro e; have := nodes_all hn; rw [e] at this; simp at this; omega
  obtain ⟨s, h1, h2, h3⟩ := fold_candidates hlen hne
  have hs : ∀ x, x ∈ s ↔ ∃ e ∈ ents, e.1 = x ∧ sameKVs kvs e.2 = true := by
    intro x
    rw [h3, all_nodes_iff hn, ← mem_all_iff h hv]
    simp only [hi]
  rcases ids_of_all h hv h2 hs with ⟨rfl, h'⟩ | ⟨e, he, rfl, h'⟩
  · exact .inl ⟨h1, h'⟩
  · exact .inr ⟨e, he, h1, h'⟩

theorem node_self_of_mem {ix : Index K} {ents : List (Nat × KVs K)} (h : IxInv ix ents) {kvs : KVs K} {e : Nat × KVs K} (he : e ∈ ents)
    (hs : sameKVs kvs e.2 = true) {kv : GoString × K} (hkv : kv ∈ kvs) :
    ∃ nd, ix.node kv.1 kv.2 = some nd ∧ kvs.length ≤ nd.length := by
  have hlen : 0 < kvs.length := List.length_pos_iff.2 (List.ne_nil_of_mem hkv)
  have hs' := sameKVs_iff.1 hs
  have hm := (h.mem kv.1 kv.2 (kvs.length - 1) e.1).2 ⟨e, he, rfl, by omega, hs'.2 kv hkv⟩
  unfold idsOf at hm
  cases hnd : ix.node kv.1 kv.2 with
  | none => rw [hnd] at hm; simp at hm
  | some nd =>
    rw [hnd] at hm; simp only [Option.getD_some] at hm
    have := length_of_mem hm
    exact ⟨nd, rfl, by omega⟩

theorem hasKV_self {kvs : KVs K} {kv : GoString × K} (h : kv ∈ kvs) : hasKV kvs kv.1 kv.2 = true := hasKV_iff.2 ⟨kv, h, rfl, keq_refl _⟩

theorem hasKV_node {ix : Index K} {kvs : KVs K} {k : GoString} {v : K} (h : hasKV kvs k v = true) :
    ∃ kv ∈ kvs, ix.node k v = ix.node kv.1 kv.2 := by
  obtain ⟨kv, hkv, hk, hv⟩ := hasKV_iff.1 h
  refine ⟨kv, hkv, (hits_node_congr ?_).symm⟩
  simp [hits, seq, hk]; exact hv

/-- Cleaning up a clean index changes nothing. -/
theorem clean_id {ix : Index K} {ents : List (Nat × KVs K)} (h : IxInv ix ents) {kvs : KVs K} (hv : ValidKVs kvs) :
    IxInv (kvs.foldl (fun ix kv => ix.cleanup kv.1 kv.2 id) ix) ents := by
  refine h.congr (wf_foldCleanup h.wf) fun k v => ?_
  rw [node_foldCleanup hv.2 h.wf]
  split
  · cases hnd : ix.node k v with
    | none => rfl
    | some nd => have := (h.clean k v nd hnd).1; simp [keepNE, this]
  · rfl

/-- Taking the id out of every node and cleaning up. -/
theorem removed_fold {ix : Index K} {kvs : KVs K} (hv : ValidKVs kvs) (w : ix.WF) (hn : ∀ kv ∈ kvs, ∃ nd, ix.node kv.1 kv.2 = some nd) (x : Nat) :
    Removed ix (kvs.foldl (fun ix kv => ix.cleanup kv.1 kv.2 id) (kvs.foldl (fun ix kv => ix.upsert kv.1 kv.2 (removeId kvs.length x)) ix)) x kvs := by
  refine ⟨wf_foldCleanup (wf_foldUpsert w), fun k v => ?_⟩
  rw [node_foldCleanup hv.2 (wf_foldUpsert w), node_foldUpsert hv.2]
  split
  · rename_i hk
    obtain ⟨kv, hkv, e⟩ := hasKV_node (ix := ix) hk
    obtain ⟨nd, hnd⟩ := hn kv hkv
    rw [e, hnd]; simp
  · rfl

/-! ### Delete -/

theorem delete_spec {t : ATree K V} {ents : List (Nat × KVs K)} (h : IxInv t.keys ents) {kvs : KVs K} (hv : ValidKVs kvs)
    (can : Option (Item K V → Bool)) :
    ((∀ e ∈ ents, sameKVs kvs e.2 = false) ∧ (t.delete kvs can).1.items = t.items ∧ (t.delete kvs can).1.next = t.next ∧
      (t.delete kvs can).2 = none ∧ IxInv (t.delete kvs can).1.keys ents) ∨
    ∃ e ∈ ents, sameKVs kvs e.2 = true ∧ (t.delete kvs can).1.next = t.next ∧
      if agrees (t.itemById e.1) can then
        (t.delete kvs can).1.items = t.items.filter (fun i => i.id != e.1) ∧ (t.delete kvs can).2 = (if can.isSome then t.itemById e.1 else none) ∧
          IxInv (t.delete kvs can).1.keys (ents.filter (fun x => x.1 != e.1)) ∧ Removed t.keys (t.delete kvs can).1.keys e.1 kvs
      else (t.delete kvs can).1.items = t.items ∧ (t.delete kvs can).2 = t.itemById e.1 ∧ IxInv (t.delete kvs can).1.keys ents := by
  have hlen : 0 < kvs.length := List.length_pos_iff.2 hv.1
  unfold ATree.delete
  simp only
  split
  · rename_i hall
    have hn := nodes_some hall
    have hcand := candidates h hv hn (fun _ _ _ => rfl)
    split
    · rename_i hshort
      left
      refine ⟨?_, rfl, rfl, rfl, h⟩
      intro e he
      cases hs : sameKVs kvs e.2 with
      | false => rfl
      | true =>
        rw [List.any_eq_true] at hshort
        obtain ⟨nd, hnd, hl⟩ := hshort
        obtain ⟨kv, hkv, hkn⟩ := List.mem_filterMap.1 hnd
        obtain ⟨nd', h1, h2⟩ := node_self_of_mem h he hs hkv
        rw [hkn] at h1; cases h1; simp at hl; omega
    · rcases hcand with ⟨hc, hno⟩ | ⟨e, he, hc, hs⟩
      · left
        rw [hc]
        exact ⟨hno, rfl, rfl, rfl, clean_id h hv⟩
      · right
        refine ⟨e, he, hs, ?_⟩
        rw [hc]
        simp only
        have hrem := removed_fold hv h.wf hn e.1
        cases hdel : agrees (t.itemById e.1) can
        · exact ⟨rfl, rfl, rfl, clean_id h hv⟩
        · exact ⟨rfl, rfl, rfl, h.removed he hv hs hrem, hrem⟩
  · rename_i hall
    left
    refine ⟨?_, rfl, rfl, rfl, clean_id h hv⟩
    intro e he
    cases hs : sameKVs kvs e.2 with
    | false => rfl
    | true => exact absurd (nodes_all fun kv hkv => (node_self_of_mem h he hs hkv).imp fun _ h => h.1) hall

theorem Inv.delete {t : ATree K V} (h : Inv t) {kvs : KVs K} (hv : ValidKVs kvs) (can : Option (Item K V → Bool)) :
    Inv (t.delete kvs can).1 ∧
    (Store.remove ⟨t.items, t.next⟩ (fun i => sameKVs kvs i.kvs) can) =
      (⟨(t.delete kvs can).1.items, (t.delete kvs can).1.next⟩, .deleted (t.delete kvs can).2) := by
  rcases delete_spec h.ix hv can with ⟨hno, h1, h2, h3, h4⟩ | ⟨e, he, hs, hnx, hr⟩
  · refine ⟨⟨by rw [h1]; exact h4, by rw [h1, h2]; exact h.fresh⟩, ?_⟩
    have : t.items.find? (fun i => sameKVs kvs i.kvs) = none := by
      rw [List.find?_eq_none]; intro i hi
      have := hno (i.id, i.kvs) (List.mem_map.2 ⟨i, hi, rfl⟩)
      simp [this]
    simp [Store.remove, this, h1, h2, h3]
  · obtain ⟨i, hi, rfl⟩ := List.mem_map.1 he
    simp only at *
    have hf := find_same h hi hs hv
    rw [h.itemById hi] at hr
    unfold agrees at hr
    cases can with
    | none =>
      simp only [if_true] at hr
      obtain ⟨h1, h2, h3, _⟩ := hr
      refine ⟨⟨by rw [h1, ← entsOf_filter]; exact h3, ?_⟩, ?_⟩
      · rw [h1, hnx]; intro j hj; exact h.fresh j (List.mem_filter.1 hj).1
      · simp [Store.remove, hf, h1, h2, hnx]
    | some f =>
      simp only at hr
      cases hfi : f i
      · simp only [hfi] at hr; simp only [Bool.false_eq_true, if_false] at hr
        obtain ⟨h1, h2, h3⟩ := hr
        refine ⟨⟨by rw [h1]; exact h3, by rw [h1, hnx]; exact h.fresh⟩, ?_⟩
        simp [Store.remove, hf, h1, h2, hnx, hfi]
      · simp only [hfi] at hr; simp only [if_true] at hr
        obtain ⟨h1, h2, h3, _⟩ := hr
        refine ⟨⟨by rw [h1, ← entsOf_filter]; exact h3, ?_⟩, ?_⟩
        · rw [h1, hnx]; intro j hj; exact h.fresh j (List.mem_filter.1 hj).1
        · simp [Store.remove, hf, h1, h2, hnx, hfi]

/-! ### Create -/

theorem Inv.insert {t : ATree K V} (h : Inv t) {kvs : KVs K} (hv : ValidKVs kvs) (onCreate : Option V) (orFind : Bool) :
    Inv (t.insert kvs onCreate orFind).1 ∧
    storeStep ⟨t.items, t.next⟩ (if orFind then .createOrFind kvs onCreate else .create kvs onCreate) =
      (⟨(t.insert kvs onCreate orFind).1.items, (t.insert kvs onCreate orFind).1.next⟩, seen (t.insert kvs onCreate orFind).2) := by
  have hlen : 0 < kvs.length := List.length_pos_iff.2 hv.1
  unfold ATree.insert
  simp only
  generalize hk1 : kvs.foldl (fun ix kv => ix.upsert kv.1 kv.2 (fun nd => nd)) t.keys = keys1
  have n1 : ∀ k v, keys1.node k v = if hasKV kvs k v then some ((t.keys.node k v).getD []) else t.keys.node k v := by
    intro k v; rw [← hk1, node_foldUpsert hv.2]
  have w1 : keys1.WF := hk1 ▸ wf_foldUpsert h.ix.wf
  have i1 : ∀ k v n, idsOf keys1 k v n = idsOf t.keys k v n := by
    intro k v n; unfold idsOf; rw [n1]; split <;> rfl
  have s1 : ∀ kv ∈ kvs, ∃ nd, keys1.node kv.1 kv.2 = some nd := by
    intro kv hkv; rw [n1, hasKV_self hkv]; exact ⟨_, rfl⟩
  generalize hk2 : kvs.foldl (fun ix kv => ix.upsert kv.1 kv.2 (extendNode kvs.length)) keys1 = keys2
  have n2 : ∀ k v, keys2.node k v = if hasKV kvs k v then some (extendNode kvs.length ((t.keys.node k v).getD [])) else t.keys.node k v := by
    intro k v; rw [← hk2, node_foldUpsert hv.2, n1]; split <;> rfl
  have w2 : keys2.WF := hk2 ▸ wf_foldUpsert w1
  rcases candidates h.ix hv s1 i1 with ⟨hc, hno⟩ | ⟨e, he, hc, hs⟩
  · rw [hc]
    simp only
    have hfind : t.items.find? (fun i => sameKVs kvs i.kvs) = none := by
      rw [List.find?_eq_none]; intro i hi
      have := hno (i.id, i.kvs) (List.mem_map.2 ⟨i, hi, rfl⟩)
      simp [this]
    generalize hk3 : kvs.foldl (fun ix kv => ix.upsert kv.1 kv.2 (appendId kvs.length t.next)) keys2 = keys3
    have hadd : Added t.keys keys3 t.next kvs := by
      refine ⟨hk3 ▸ wf_foldUpsert w2, fun k v => ?_⟩
      rw [← hk3, node_foldUpsert hv.2, n2]
      split <;> rfl
    have hnew : ∀ e ∈ entsOf t.items, e.1 ≠ t.next := by
      intro e he
      obtain ⟨i, hi, rfl⟩ := List.mem_map.1 he
      have := h.fresh i hi; simp only; omega
    have h3 : IxInv keys3 (entsOf t.items ++ [(t.next, kvs)]) := h.ix.added hv hnew hno hadd
    cases onCreate with
    | some v =>
      simp only
      refine ⟨⟨by simpa [entsOf] using h3, ?_⟩, ?_⟩
      · intro i hi
        rcases List.mem_append.1 hi with hi | hi
        · have := h.fresh i hi; simp only; omega
        · simp at hi; subst hi; simp
      · cases orFind <;> simp [storeStep, hfind, seen]
    | none =>
      simp only
      have hne : ({ t with keys := keys3, next := t.next + 1 } : ATree K V).itemById t.next = none := by
        unfold ATree.itemById; rw [List.find?_eq_none]; intro i hi
        have := h.fresh i hi; simp; omega
      have hd := delete_spec (t := { t with keys := keys3, next := t.next + 1 }) h3 hv none
      rcases hd with ⟨hno', _⟩ | ⟨e, he, hs, hnx, hr⟩
      · have := hno' (t.next, kvs) (by simp)
        simp only at this; rw [sameKVs_refl] at this; cases this
      · have he' : e = (t.next, kvs) := by
          rcases List.mem_append.1 he with he | he
          · rw [hno e he] at hs; cases hs
          · simpa using he
        subst he'
        simp only at hr
        rw [hne] at hr
        simp only [agrees, if_true] at hr
        obtain ⟨h1, h2, h4, _⟩ := hr
        have hitems : t.items.filter (fun i => i.id != t.next) = t.items := by
          rw [List.filter_eq_self]; intro i hi; have := h.fresh i hi; simp; omega
        have hents : (entsOf t.items ++ [(t.next, kvs)]).filter (fun x => x.1 != t.next) = entsOf t.items := by
          rw [List.filter_append, entsOf_filter, hitems]; simp
        rw [hents] at h4
        rw [hitems] at h1
        refine ⟨⟨by rw [h1]; exact h4, ?_⟩, ?_⟩
        · rw [h1, hnx]; intro i hi; have := h.fresh i hi; simp only; omega
        · cases orFind <;> simp [storeStep, hfind, seen, h1, hnx]
  · rw [hc]
    obtain ⟨i, hi, rfl⟩ := List.mem_map.1 he
    simp only at hs ⊢
    have hf := find_same h hi hs hv
    have n2' : ∀ k v, keys2.node k v = t.keys.node k v := by
      intro k v
      rw [n2]
      split
      · rename_i hk
        obtain ⟨kv, hkv, e⟩ := hasKV_node (ix := t.keys) hk
        obtain ⟨nd, hnd, hl⟩ := node_self_of_mem h.ix he hs hkv
        rw [e, hnd]; simp [extend_eq hl]
      · rfl
    have hix := h.ix.congr w2 n2'
    cases orFind
    · simp only [Bool.false_eq_true, if_false]
      refine ⟨⟨hix, h.fresh⟩, ?_⟩
      simp [storeStep, hf, seen]
    · simp only [if_true]
      rw [h.itemById hi]
      refine ⟨⟨hix, h.fresh⟩, ?_⟩
      simp [storeStep, hf, seen]

end
end Willow.Assoc
