import Verif.Proofs.AssocBase
import Batteries.Data.List.Perm
/-! The index of the associated tree: id nodes, candidates, and the index invariant. -/
namespace Willow.Assoc
open KeyOps BTree Spec

variable {K V : Type}

/-! ### Id nodes -/

theorem getD_extend {n i : Nat} {nd : IdNode} : (extendNode n nd).getD i [] = nd.getD i [] := by
  unfold extendNode
  simp only [List.getD_eq_getElem?_getD, List.getElem?_append, List.getElem?_replicate]
  split
  · rfl
  · rename_i h
    rw [List.getElem?_eq_none (Nat.le_of_not_lt h)]; split <;> simp

theorem length_extend {n : Nat} {nd : IdNode} : (extendNode n nd).length = max nd.length n := by
  simp [extendNode]; omega

theorem extend_eq {n : Nat} {nd : IdNode} (h : n ≤ nd.length) : extendNode n nd = nd := by
  simp [extendNode, Nat.sub_eq_zero_of_le h]

theorem getD_set {n i : Nat} {nd : IdNode} {l : List Nat} (h : i < nd.length) :
    (nd.set i l).getD n [] = if n = i then l else nd.getD n [] := by
  simp only [List.getD_eq_getElem?_getD, List.getElem?_set]
  by_cases e : i = n
  · subst e; simp [h]
  · simp [e, Ne.symm e]

theorem getD_append {n i id : Nat} {nd : IdNode} (h : n ≤ nd.length) (h0 : 0 < n) :
    (appendId n id nd).getD i [] = if i = n - 1 then nd.getD i [] ++ [id] else nd.getD i [] := by
  unfold appendId; rw [getD_set (by omega)]; split
  · rename_i e; rw [e]
  · rfl

/-- The last list of the node is not empty. -/
def CleanNode (nd : IdNode) : Prop := nd.getLast? ≠ some []

theorem cleanNode_iff {nd : IdNode} (h : nd ≠ []) : CleanNode nd ↔ nd.getD (nd.length - 1) [] ≠ [] := by
  unfold CleanNode
  rw [List.getLast?_eq_getElem?, List.getD_eq_getElem?_getD]
  have : nd.length - 1 < nd.length := by have := List.length_pos_iff.2 h; omega
  rw [List.getElem?_eq_getElem this]; simp

theorem truncate_clean {nd : IdNode} : CleanNode (truncateNode nd) := by
  unfold CleanNode truncateNode
  rw [List.getLast?_reverse]
  intro h
  have := List.head?_dropWhile_not List.isEmpty nd.reverse
  rw [h] at this; simp at this

theorem truncate_of_clean {nd : IdNode} (h : CleanNode nd) : truncateNode nd = nd := by
  unfold truncateNode
  rcases List.eq_nil_or_concat nd with rfl | ⟨l, a, rfl⟩
  · rfl
  · simp [CleanNode] at h
    simp [List.reverse_append, List.dropWhile_cons, h]

theorem truncate_concat_nil {l : IdNode} : truncateNode (l ++ [[]]) = truncateNode l := by
  simp [truncateNode, List.reverse_append]

theorem truncate_replicate {l : IdNode} {m : Nat} : truncateNode (l ++ List.replicate m []) = truncateNode l := by
  induction m with
  | zero => simp
  | succ m ih => rw [List.replicate_succ', ← List.append_assoc, truncate_concat_nil, ih]

theorem truncate_prefix {nd : IdNode} : ∃ m, nd = truncateNode nd ++ List.replicate m [] := by
  have key : ∀ r : IdNode, ∃ m, r.reverse = truncateNode r.reverse ++ List.replicate m [] := by
    intro r
    induction r with
    | nil => exact ⟨0, rfl⟩
    | cons a l ih =>
      rw [List.reverse_cons]
      by_cases ha : a = []
      · subst ha
        obtain ⟨m, hm⟩ := ih
        refine ⟨m + 1, ?_⟩
        rw [truncate_concat_nil, List.replicate_succ', ← List.append_assoc, ← hm]
      · refine ⟨0, ?_⟩
        rw [truncate_of_clean (by simp [CleanNode, ha])]; simp
  simpa using key nd.reverse

theorem getD_truncate {nd : IdNode} {i : Nat} : (truncateNode nd).getD i [] = nd.getD i [] := by
  obtain ⟨m, hm⟩ := @truncate_prefix nd
  conv => rhs; rw [hm]
  have := @getD_extend ((truncateNode nd).length + m) i (truncateNode nd)
  rw [← this]; simp [extendNode]

theorem swapPop_concat {id : Nat} {l : List Nat} (h : id ∉ l) : swapPop id (l ++ [id]) = l := by
  unfold swapPop
  have hn : l.findIdx? (· == id) = none := by
    rw [List.findIdx?_eq_none_iff]; intro x hx; simp; rintro rfl; exact h hx
  have : (l ++ [id]).findIdx? (· == id) = some l.length := by
    rw [List.findIdx?_append, hn]; simp [List.findIdx?_cons]
  rw [this]; simp [List.set_append]

theorem swapPop_perm {id : Nat} {l : List Nat} (h : id ∈ l) : (id :: swapPop id l).Perm l := by
  unfold swapPop
  have hf : ∃ i, l.findIdx? (· == id) = some i := by
    cases e : l.findIdx? (· == id) with
    | some i => exact ⟨i, rfl⟩
    | none => rw [List.findIdx?_eq_none_iff] at e; have := e id h; simp at this
  obtain ⟨i, hi⟩ := hf
  have hne : l ≠ [] := List.ne_nil_of_mem h
  rw [hi, List.getLast?_eq_some_getLast hne]
  simp only
  rw [List.findIdx?_eq_some_iff_getElem] at hi
  obtain ⟨hlt, hid, _⟩ := hi
  simp at hid
  obtain ⟨p, q, hpq⟩ : ∃ p q, l = p ++ id :: q ∧ p.length = i := by
    refine ⟨l.take i, l.drop (i+1), ?_, by simp; omega⟩
    rw [← hid, List.getElem_cons_drop]; simp
  obtain ⟨rfl, rfl⟩ := hpq
  rcases List.eq_nil_or_concat q with rfl | ⟨q', b, rfl⟩
  · simp only [List.getLast_append, List.getLast_singleton]
    simp [List.set_append]
    exact List.perm_append_comm (l₁ := [id]) (l₂ := p)
  · simp only [List.concat_eq_append] at hne ⊢
    have e : ((p ++ id :: (q' ++ [b])).set p.length b).dropLast = p ++ b :: q' := by
      have : (p ++ id :: (q' ++ [b])).set p.length b = (p ++ b :: q') ++ [b] := by simp
      rw [this, List.dropLast_concat]
    have hl : (p ++ id :: (q' ++ [b])).getLast hne = b := by
      have : p ++ id :: (q' ++ [b]) = (p ++ id :: q') ++ [b] := by simp
      simp only [this, List.getLast_concat]
    rw [hl, e]
    have h1 : (p ++ b :: q').Perm (b :: (p ++ q')) := List.perm_middle
    have h2 : (p ++ id :: (q' ++ [b])).Perm (id :: (p ++ (q' ++ [b]))) := List.perm_middle
    have h3 : (p ++ (q' ++ [b])).Perm (b :: (p ++ q')) := by
      rw [← List.append_assoc]; exact List.perm_append_comm (l₁ := p ++ q') (l₂ := [b])
    exact ((h1.trans h3.symm).cons id).trans h2.symm

theorem mem_swapPop {id x : Nat} {l : List Nat} (hm : id ∈ l) (hn : l.Nodup) : x ∈ swapPop id l ↔ x ∈ l ∧ x ≠ id := by
  have hp := swapPop_perm hm
  have hn' := hp.nodup_iff.2 hn
  rw [← hp.mem_iff]
  simp only [List.nodup_cons, List.mem_cons] at *
  constructor
  · intro h; exact ⟨.inr h, fun e => hn'.1 (e ▸ h)⟩
  · rintro ⟨rfl | h, h'⟩
    · exact absurd rfl h'
    · exact h

theorem nodup_swapPop {id : Nat} {l : List Nat} (hm : id ∈ l) (hn : l.Nodup) : (swapPop id l).Nodup :=
  (List.nodup_cons.1 ((swapPop_perm hm).nodup_iff.2 hn)).2

theorem getD_removeId {n i id : Nat} {nd : IdNode} (h : n ≤ nd.length) (h0 : 0 < n) :
    (removeId n id nd).getD i [] = if i = n - 1 then swapPop id (nd.getD i []) else nd.getD i [] := by
  unfold removeId; rw [getD_truncate, getD_set (by omega)]; split
  · rename_i e; rw [e]
  · rfl

theorem removeId_clean {n id : Nat} {nd : IdNode} : CleanNode (removeId n id nd) := truncate_clean

theorem append_clean {n id : Nat} {nd : IdNode} (h0 : 0 < n) (hc : CleanNode nd) : CleanNode (appendId n id (extendNode n nd)) := by
  have hlen : (appendId n id (extendNode n nd)).length = max nd.length n := by
    unfold appendId; rw [List.length_set, length_extend]
  have hne : appendId n id (extendNode n nd) ≠ [] := by
    intro e; rw [e] at hlen; simp at hlen; omega
  rw [cleanNode_iff hne, hlen, getD_append (by rw [length_extend]; omega) h0, getD_extend]
  split
  · simp
  · rename_i h
    have hnd : nd ≠ [] := by rintro rfl; simp at h
    have := (cleanNode_iff hnd).1 hc
    have e : max nd.length n = nd.length := by omega
    rw [e]; exact this

/-- Adding an id and taking it away again gives back the node. -/
theorem remove_append {n id : Nat} {nd : IdNode} (h0 : 0 < n) (hc : CleanNode nd) (hf : id ∉ nd.getD (n-1) []) :
    removeId n id (appendId n id (extendNode n nd)) = nd := by
  unfold removeId appendId
  have hlen : n - 1 < (extendNode n nd).length := by rw [length_extend]; omega
  rw [getD_set hlen]; simp only [if_true]
  rw [getD_extend, swapPop_concat hf, List.set_set]
  have : (extendNode n nd).set (n-1) (nd.getD (n-1) []) = extendNode n nd := by
    rw [← @getD_extend n (n-1) nd]
    apply List.ext_getElem?; intro i
    rw [List.getElem?_set]
    split
    · rename_i e; subst e; simp [hlen]
    · rfl
  rw [this]; unfold extendNode; rw [truncate_replicate, truncate_of_clean hc]

/-! ### Candidates -/

theorem fold_candidates_some {n : Nat} (h0 : 0 < n) {nodes : List IdNode} {s0 : GSet} (hs : s0.Nodup) :
    ∃ s, nodes.foldl (candidateStep n) (some s0) = some s ∧ s.Nodup ∧ ∀ x, x ∈ s ↔ x ∈ s0 ∧ ∀ nd ∈ nodes, x ∈ nd.getD (n-1) [] := by
  induction nodes generalizing s0 with
  | nil => exact ⟨s0, rfl, hs, by simp⟩
  | cons nd nodes ih =>
    rw [List.foldl_cons]
    by_cases hl : nd.length < n
    · have hg : nd.getD (n-1) [] = [] := by
        rw [List.getD_eq_getElem?_getD, List.getElem?_eq_none (by omega)]; rfl
      simp only [candidateStep, hl, if_true]
      obtain ⟨s, h1, h2, h3⟩ := ih (s0 := []) List.nodup_nil
      refine ⟨s, h1, h2, fun x => ?_⟩
      rw [h3 x]; simp only [List.mem_cons, forall_eq_or_imp, hg]; simp
    · simp only [candidateStep, hl, if_false]
      obtain ⟨s, h1, h2, h3⟩ := ih (s0 := s0.inter (nd.getD (n-1) [])) GSet.nodup_inter
      refine ⟨s, h1, h2, fun x => ?_⟩
      rw [h3 x, GSet.mem_inter]; simp only [List.mem_cons, forall_eq_or_imp]; exact and_assoc

theorem fold_candidates {n : Nat} (h0 : 0 < n) {nodes : List IdNode} (hne : nodes ≠ []) :
    ∃ s, nodes.foldl (candidateStep n) none = some s ∧ s.Nodup ∧ ∀ x, x ∈ s ↔ ∀ nd ∈ nodes, x ∈ nd.getD (n-1) [] := by
  cases nodes with
  | nil => exact absurd rfl hne
  | cons nd nodes =>
    rw [List.foldl_cons]
    by_cases hl : nd.length < n
    · have hg : nd.getD (n-1) [] = [] := by
        rw [List.getD_eq_getElem?_getD, List.getElem?_eq_none (by omega)]; rfl
      simp only [candidateStep, hl, if_true]
      obtain ⟨s, h1, h2, h3⟩ := fold_candidates_some h0 (nodes := nodes) (s0 := []) List.nodup_nil
      refine ⟨s, h1, h2, fun x => ?_⟩
      rw [h3 x]; simp only [List.mem_cons, forall_eq_or_imp, hg]
    · simp only [candidateStep, hl, if_false]
      obtain ⟨s, h1, h2, h3⟩ := fold_candidates_some h0 (nodes := nodes) (s0 := GSet.new (nd.getD (n-1) [])) GSet.nodup_new
      refine ⟨s, h1, h2, fun x => ?_⟩
      rw [h3 x, GSet.mem_new]; simp

section
variable [LawfulKey K]

/-! ### Key-value sets -/

theorem same_eq_keq (a b : K) : same a b = keq a b := rfl
theorem veq_eq_keq (a b : K) : veq a b = keq a b := rfl

theorem sameKVs_iff {a b : KVs K} : sameKVs a b = true ↔ a.length = b.length ∧ ∀ x ∈ a, hasKV b x.1 x.2 = true := by
  simp only [sameKVs, hasKV, hits, seq, Bool.and_eq_true, beq_iff_eq, List.all_eq_true, List.any_eq_true]
  constructor
  · rintro ⟨h1, h2⟩
    refine ⟨h1, fun x hx => ?_⟩
    obtain ⟨y, hy, e, h⟩ := h2 x hx
    exact ⟨y, hy, e.symm, keq_symm h⟩
  · rintro ⟨h1, h2⟩
    refine ⟨h1, fun x hx => ?_⟩
    obtain ⟨y, hy, e, h⟩ := h2 x hx
    exact ⟨y, hy, e.symm, keq_symm h⟩

theorem hasKV_iff {b : KVs K} {k : GoString} {v : K} : hasKV b k v = true ↔ ∃ y ∈ b, y.1 = k ∧ keq y.2 v = true := by
  simp only [hasKV, hits, seq, List.any_eq_true, Bool.and_eq_true, beq_iff_eq]; rfl

theorem sameKVs_refl (a : KVs K) : sameKVs a a = true := by
  rw [sameKVs_iff]; refine ⟨rfl, fun x hx => hasKV_iff.2 ⟨x, hx, rfl, keq_refl _⟩⟩

theorem eq_of_key {a : KVs K} (nd : (a.map (·.1)).Nodup) {x y : GoString × K} (hx : x ∈ a) (hy : y ∈ a) (e : x.1 = y.1) : x = y := by
  induction a with
  | nil => cases hx
  | cons z a ih =>
    simp only [List.map_cons, List.nodup_cons, List.mem_map, not_exists, not_and] at nd
    rcases List.mem_cons.1 hx with h1 | h1 <;> rcases List.mem_cons.1 hy with h2 | h2
    · exact h1.trans h2.symm
    · subst h1; exact absurd e.symm (nd.1 y h2)
    · subst h2; exact absurd e (nd.1 x h1)
    · exact ih nd.2 h1 h2

theorem sameKVs_symm {a b : KVs K} (ha : ValidKVs a) (hb : ValidKVs b) (h : sameKVs a b = true) : sameKVs b a = true := by
  rw [sameKVs_iff] at *
  refine ⟨h.1.symm, fun y hy => ?_⟩
  have hsub : a.map (·.1) ⊆ b.map (·.1) := by
    intro k hk
    obtain ⟨x, hx, rfl⟩ := List.mem_map.1 hk
    obtain ⟨y, hy, e, _⟩ := hasKV_iff.1 (h.2 x hx)
    exact List.mem_map.2 ⟨y, hy, e⟩
  have hperm := (List.subperm_of_subset ha.2 hsub).perm_of_length_le (by simp [h.1])
  have : y.1 ∈ a.map (·.1) := hperm.mem_iff.2 (List.mem_map.2 ⟨y, hy, rfl⟩)
  obtain ⟨x, hx, e⟩ := List.mem_map.1 this
  obtain ⟨y', hy', e', hk⟩ := hasKV_iff.1 (h.2 x hx)
  have : y' = y := eq_of_key hb.2 hy' hy (e'.trans e)
  subst this
  exact hasKV_iff.2 ⟨x, hx, e, keq_symm hk⟩

theorem hasKV_of_same {a b : KVs K} (h : sameKVs a b = true) {k : GoString} {v : K} (hk : hasKV a k v = true) : hasKV b k v = true := by
  rw [sameKVs_iff] at h
  obtain ⟨x, hx, e, hv⟩ := hasKV_iff.1 hk
  obtain ⟨y, hy, e', hv'⟩ := hasKV_iff.1 (h.2 x hx)
  exact hasKV_iff.2 ⟨y, hy, e'.trans e, keq_trans hv' hv⟩

theorem sameKVs_trans {a b c : KVs K} (h1 : sameKVs a b = true) (h2 : sameKVs b c = true) : sameKVs a c = true := by
  have h1' := sameKVs_iff.1 h1
  rw [sameKVs_iff]
  exact ⟨h1'.1.trans (sameKVs_iff.1 h2).1, fun x hx => hasKV_of_same h2 (h1'.2 x hx)⟩

theorem hasKV_congr {a b : KVs K} (ha : ValidKVs a) (hb : ValidKVs b) (h : sameKVs a b = true) (k : GoString) (v : K) :
    hasKV a k v = hasKV b k v := by
  rw [Bool.eq_iff_iff]; exact ⟨hasKV_of_same h, hasKV_of_same (sameKVs_symm ha hb h)⟩

/-! ### The index invariant -/

/-- The ids stored for a key, value and size `n + 1`. -/
def idsOf (ix : Index K) (k : GoString) (v : K) (n : Nat) : List Nat := ((ix.node k v).getD []).getD n []

/-- The index describes exactly the entries (id, key-values). -/
structure IxInv (ix : Index K) (ents : List (Nat × KVs K)) : Prop where
  wf : ix.WF
  clean : ∀ k v nd, ix.node k v = some nd → nd ≠ [] ∧ CleanNode nd
  ids : (ents.map (·.1)).Nodup
  valid : ∀ e ∈ ents, ValidKVs e.2
  uniq : ∀ e ∈ ents, ∀ e' ∈ ents, sameKVs e.2 e'.2 = true → e.1 = e'.1
  mem : ∀ k v n id, id ∈ idsOf ix k v n ↔ ∃ e ∈ ents, e.1 = id ∧ e.2.length = n + 1 ∧ hasKV e.2 k v = true
  nodup : ∀ k v n, (idsOf ix k v n).Nodup

theorem IxInv.congr {ix ix' : Index K} {ents : List (Nat × KVs K)} (h : IxInv ix ents) (w : ix'.WF) (e : ∀ k v, ix'.node k v = ix.node k v) :
    IxInv ix' ents :=
  ⟨w, fun k v nd => by rw [e]; exact h.clean k v nd, h.ids, h.valid, h.uniq,
   fun k v n id => by unfold idsOf; rw [e]; exact h.mem k v n id, fun k v n => by unfold idsOf; rw [e]; exact h.nodup k v n⟩

theorem ent_eq {ents : List (Nat × KVs K)} (nd : (ents.map (·.1)).Nodup) {x y : Nat × KVs K} (hx : x ∈ ents) (hy : y ∈ ents) (e : x.1 = y.1) :
    x = y := by
  induction ents with
  | nil => cases hx
  | cons z a ih =>
    simp only [List.map_cons, List.nodup_cons, List.mem_map, not_exists, not_and] at nd
    rcases List.mem_cons.1 hx with h1 | h1 <;> rcases List.mem_cons.1 hy with h2 | h2
    · exact h1.trans h2.symm
    · subst h1; exact absurd e.symm (nd.1 y h2)
    · subst h2; exact absurd e (nd.1 x h1)
    · exact ih nd.2 h1 h2

/-- The candidates are exactly the ids of entries with the same key-values. -/
theorem mem_all_iff {ix : Index K} {ents : List (Nat × KVs K)} (h : IxInv ix ents) {kvs : KVs K} (hv : ValidKVs kvs) (x : Nat) :
    (∀ kv ∈ kvs, x ∈ idsOf ix kv.1 kv.2 (kvs.length - 1)) ↔ ∃ e ∈ ents, e.1 = x ∧ sameKVs kvs e.2 = true := by
  have hlen : 0 < kvs.length := List.length_pos_iff.2 hv.1
  constructor
  · intro ha
    obtain ⟨kv0, hkv0⟩ := List.exists_mem_of_ne_nil kvs hv.1
    obtain ⟨e, he, hex, hel, _⟩ := (h.mem _ _ _ _).1 (ha kv0 hkv0)
    refine ⟨e, he, hex, sameKVs_iff.2 ⟨by omega, fun kv hkv => ?_⟩⟩
    obtain ⟨e', he', hex', _, hk⟩ := (h.mem _ _ _ _).1 (ha kv hkv)
    have := ent_eq h.ids he he' (hex.trans hex'.symm)
    subst this; exact hk
  · rintro ⟨e, he, rfl, hs⟩ kv hkv
    rw [sameKVs_iff] at hs
    exact (h.mem _ _ _ _).2 ⟨e, he, rfl, by omega, hs.2 kv hkv⟩

theorem ids_of_all {ents : List (Nat × KVs K)} {ix : Index K} (h : IxInv ix ents) {kvs : KVs K} (hv : ValidKVs kvs) {s : GSet} (hn : s.Nodup)
    (hs : ∀ x, x ∈ s ↔ ∃ e ∈ ents, e.1 = x ∧ sameKVs kvs e.2 = true) :
    (s = [] ∧ ∀ e ∈ ents, sameKVs kvs e.2 = false) ∨ ∃ e ∈ ents, s = [e.1] ∧ sameKVs kvs e.2 = true := by
  cases s with
  | nil =>
    refine .inl ⟨rfl, fun e he => ?_⟩
    cases hk : sameKVs kvs e.2 with
    | false => rfl
    | true => exact absurd ((hs e.1).2 ⟨e, he, rfl, hk⟩) (by simp)
  | cons x s =>
    obtain ⟨e, he, rfl, hk⟩ := (hs x).1 (by simp)
    refine .inr ⟨e, he, ?_, hk⟩
    cases s with
    | nil => rfl
    | cons y s =>
      obtain ⟨e', he', rfl, hk'⟩ := (hs y).1 (by simp)
      have := h.uniq e he e' he' (sameKVs_trans (sameKVs_symm hv (h.valid e he) hk) hk')
      simp [this] at hn

/-- `ix'` is `ix` with an id of size `n` added under all of `kvs`. -/
def Added (ix ix' : Index K) (id : Nat) (kvs : KVs K) : Prop :=
  ix'.WF ∧ ∀ k v, ix'.node k v = if hasKV kvs k v then some (appendId kvs.length id (extendNode kvs.length ((ix.node k v).getD []))) else ix.node k v

/-- `ix'` is `ix` with an id of size `n` taken away under all of `kvs`. -/
def Removed (ix ix' : Index K) (id : Nat) (kvs : KVs K) : Prop :=
  ix'.WF ∧ ∀ k v, ix'.node k v = if hasKV kvs k v then (ix.node k v).bind (fun nd => keepNE (removeId kvs.length id nd)) else ix.node k v

theorem cleanNode_nil : CleanNode [] := by simp [CleanNode]

theorem getD_keepNE {nd : IdNode} : (keepNE nd).getD [] = nd := by
  unfold keepNE; split
  · rename_i h; simp at h; simp [h]
  · rfl

theorem IxInv.added {ix ix' : Index K} {ents : List (Nat × KVs K)} (h : IxInv ix ents) {id : Nat} {kvs : KVs K} (hv : ValidKVs kvs)
    (hid : ∀ e ∈ ents, e.1 ≠ id) (hs : ∀ e ∈ ents, sameKVs kvs e.2 = false) (ha : Added ix ix' id kvs) :
    IxInv ix' (ents ++ [(id, kvs)]) := by
  obtain ⟨w, hn⟩ := ha
  have hlen : 0 < kvs.length := List.length_pos_iff.2 hv.1
  have hids : ∀ k v n, idsOf ix' k v n = if hasKV kvs k v = true ∧ n = kvs.length - 1 then idsOf ix k v n ++ [id] else idsOf ix k v n := by
    intro k v n
    unfold idsOf
    rw [hn]
    cases hk : hasKV kvs k v
    · simp
    · simp only [if_true, Option.getD_some, true_and]
      rw [getD_append (by rw [length_extend]; omega) hlen, getD_extend]
  refine ⟨w, ?_, ?_, ?_, ?_, ?_, ?_⟩
  · intro k v nd
    rw [hn]
    split
    · intro e; cases e
      have hc : CleanNode ((ix.node k v).getD []) := by
        cases hx : ix.node k v with
        | none => exact cleanNode_nil
        | some nd => exact (h.clean k v nd hx).2
      refine ⟨?_, append_clean hlen hc⟩
      intro e
      have := congrArg List.length e
      rw [appendId, List.length_set, length_extend] at this; simp only [List.length_nil] at this; omega
    · exact h.clean k v nd
  · simp only [List.map_append, List.map_cons, List.map_nil, List.nodup_append]
    refine ⟨h.ids, by simp, ?_⟩
    intro a ha b hb
    obtain ⟨e, he, rfl⟩ := List.mem_map.1 ha
    simp at hb; subst hb; exact hid e he
  · intro e he
    rcases List.mem_append.1 he with he | he
    · exact h.valid e he
    · simp at he; subst he; exact hv
  · intro e he e' he' hk
    rcases List.mem_append.1 he with he | he <;> rcases List.mem_append.1 he' with he' | he'
    · exact h.uniq e he e' he' hk
    · simp at he'; subst he'
      have := sameKVs_symm (h.valid e he) hv hk
      rw [hs e he] at this; cases this
    · simp at he; subst he
      simp only at hk; rw [hs e' he'] at hk; cases hk
    · simp at he he'; subst he; subst he'; rfl
  · intro k v n x
    rw [hids]
    have hmem := h.mem k v n x
    split
    · rename_i hc
      simp only [List.mem_append, List.mem_singleton, hmem]
      constructor
      · rintro (⟨e, he, h1⟩ | rfl)
        · exact ⟨e, .inl he, h1⟩
        · exact ⟨(x, kvs), .inr rfl, rfl, by have := hc.2; simp only; omega, hc.1⟩
      · rintro ⟨e, he | rfl, h1⟩
        · exact .inl ⟨e, he, h1⟩
        · exact .inr h1.1.symm
    · rename_i hc
      rw [hmem]
      constructor
      · rintro ⟨e, he, h1⟩; exact ⟨e, by simp [he], h1⟩
      · rintro ⟨e, he, h1, h2, h3⟩
        rcases List.mem_append.1 he with he | he
        · exact ⟨e, he, h1, h2, h3⟩
        · simp at he; subst he; exact absurd ⟨h3, by simp only at h2; omega⟩ hc
  · intro k v n
    rw [hids]
    split
    · rw [List.nodup_append]
      refine ⟨h.nodup k v n, by simp, ?_⟩
      intro a ha b hb
      simp at hb; subst hb
      obtain ⟨e, he, rfl, _⟩ := (h.mem k v n a).1 ha
      exact hid e he
    · exact h.nodup k v n

theorem length_of_mem {nd : IdNode} {n x : Nat} (h : x ∈ nd.getD n []) : n < nd.length := by
  apply Nat.lt_of_not_le; intro hc
  rw [List.getD_eq_getElem?_getD, List.getElem?_eq_none hc] at h; simp at h

theorem IxInv.removed {ix ix' : Index K} {ents : List (Nat × KVs K)} (h : IxInv ix ents) {e : Nat × KVs K} (he : e ∈ ents) {kvs : KVs K}
    (hv : ValidKVs kvs) (hs : sameKVs kvs e.2 = true) (hr : Removed ix ix' e.1 kvs) :
    IxInv ix' (ents.filter (fun x => x.1 != e.1)) := by
  obtain ⟨w, hn⟩ := hr
  have hlen : 0 < kvs.length := List.length_pos_iff.2 hv.1
  have hlen2 : kvs.length = e.2.length := (sameKVs_iff.1 hs).1
  have hin : ∀ k v, hasKV kvs k v = true → e.1 ∈ idsOf ix k v (kvs.length - 1) := fun k v hk =>
    (h.mem _ _ _ _).2 ⟨e, he, rfl, by omega, by rw [← hasKV_congr hv (h.valid e he) hs]; exact hk⟩
  have hids : ∀ k v n, idsOf ix' k v n = if hasKV kvs k v = true ∧ n = kvs.length - 1 then swapPop e.1 (idsOf ix k v n) else idsOf ix k v n := by
    intro k v n
    unfold idsOf
    rw [hn]
    cases hk : hasKV kvs k v
    · simp
    · have hm := hin k v hk
      unfold idsOf at hm
      cases hnd : ix.node k v with
      | none => rw [hnd] at hm; simp at hm
      | some nd =>
        rw [hnd] at hm; simp only [Option.getD_some] at hm
        have := length_of_mem hm
        simp only [if_true, true_and, Option.bind_some, getD_keepNE, Option.getD_some]
        rw [getD_removeId (by omega) hlen]
  refine ⟨w, ?_, ?_, ?_, ?_, ?_, ?_⟩
  · intro k v nd
    rw [hn]
    split
    · intro e'
      rw [Option.bind_eq_some_iff] at e'
      obtain ⟨nd0, _, h2⟩ := e'
      unfold keepNE at h2
      split at h2
      · cases h2
      · rename_i hne; cases h2
        refine ⟨by intro e; rw [e] at hne; simp at hne, removeId_clean⟩
    · exact h.clean k v nd
  · exact h.ids.sublist ((List.filter_sublist).map _)
  · intro x hx; exact h.valid x (List.mem_filter.1 hx).1
  · intro x hx y hy; exact h.uniq x (List.mem_filter.1 hx).1 y (List.mem_filter.1 hy).1
  · intro k v n x
    rw [hids]
    have hmem := h.mem k v n x
    split
    · rename_i hc
      obtain ⟨hk, rfl⟩ := hc
      rw [mem_swapPop (hin k v hk) (h.nodup _ _ _), hmem]
      constructor
      · rintro ⟨⟨e', he', rfl, h1⟩, h2⟩
        exact ⟨e', List.mem_filter.2 ⟨he', by simpa using h2⟩, rfl, h1⟩
      · rintro ⟨e', he', rfl, h1⟩
        rw [List.mem_filter] at he'
        exact ⟨⟨e', he'.1, rfl, h1⟩, by simpa using he'.2⟩
    · rename_i hc
      rw [hmem]
      constructor
      · rintro ⟨e', he', rfl, h1, h2⟩
        refine ⟨e', List.mem_filter.2 ⟨he', ?_⟩, rfl, h1, h2⟩
        simp only [bne_iff_ne]; intro hee
        have := ent_eq h.ids he' he hee
        subst this
        exact hc ⟨by rw [hasKV_congr hv (h.valid _ he) hs]; exact h2, by omega⟩
      · rintro ⟨e', he', h1⟩
        exact ⟨e', (List.mem_filter.1 he').1, h1⟩
  · intro k v n
    rw [hids]
    split
    · rename_i hc
      obtain ⟨hk, rfl⟩ := hc
      exact nodup_swapPop (hin k v hk) (h.nodup _ _ _)
    · exact h.nodup k v n

end
end Willow.Assoc
