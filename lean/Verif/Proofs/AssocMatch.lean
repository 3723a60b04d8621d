import Verif.Proofs.AssocRun
import Verif.Proofs.AssocPerm
/-! Match requests. -/
namespace Willow.Assoc
open KeyOps BTree Spec

variable {K V : Type}

theorem mergeNode_spec {min max : Option Int} : ∀ (nd : IdNode) (acc : List (List Nat)) (index : Nat), index ≤ acc.length →
    ∃ acc', mergeNode min max acc index nd = some acc' ∧
      ∀ n x, x ∈ acc'.getD n [] ↔ x ∈ acc.getD n [] ∨ (index ≤ n ∧ inBounds min max (n + 1) = true ∧ x ∈ nd.getD (n - index) [])
  | [], acc, index, _ => ⟨acc, rfl, fun n x => by simp⟩
  | ids :: rest, acc, index, hi => by
    unfold mergeNode
    split
    · rename_i hmin
      obtain ⟨acc', e, hm⟩ := mergeNode_spec rest (acc ++ [[]]) (index + 1) (by simp; omega)
      refine ⟨acc', e, fun n x => ?_⟩
      rw [hm]
      have h0 : (acc ++ [[]]).getD n [] = acc.getD n [] := by
        simp only [List.getD_eq_getElem?_getD]
        by_cases hn : n < acc.length
        · rw [List.getElem?_append_left hn]
        · rw [List.getElem?_append_right (by omega), List.getElem?_eq_none (l := acc) (by omega)]
          cases h : n - acc.length <;> simp
      rw [h0]
      apply or_congr Iff.rfl
      constructor
      · rintro ⟨h1, h2, h3⟩
        refine ⟨by omega, h2, ?_⟩
        have : n - index = (n - (index + 1)) + 1 := by omega
        rw [this]; simpa using h3
      · rintro ⟨h1, h2, h3⟩
        have hne : n ≠ index := by
          rintro rfl
          cases min with
          | none => simp [belowMin] at hmin
          | some m => simp [inBounds, belowMin] at h2 hmin; omega
        refine ⟨by omega, h2, ?_⟩
        have : n - index = (n - (index + 1)) + 1 := by omega
        rw [this] at h3; simpa using h3
    · split
      · rename_i hmax
        refine ⟨acc, rfl, fun n x => ?_⟩
        constructor
        · exact Or.inl
        · rintro (h | ⟨h1, h2, h3⟩)
          · exact h
          · cases max with
            | none => simp [aboveMax] at hmax
            | some m => simp [inBounds, aboveMax] at h2 hmax; omega
      · rename_i hmin hmax
        have hb : inBounds min max (index + 1) = true := by
          unfold inBounds
          cases min <;> cases max <;> simp_all [belowMin, aboveMax] <;> omega
        have hlen : index < (if (acc.length : Int) - 1 ≥ index then acc else acc ++ [[]]).length := by
          split
          · omega
          · simp; omega
        have hget : ∀ n, (if (acc.length : Int) - 1 ≥ index then acc else acc ++ [[]]).getD n [] = acc.getD n [] := by
          intro n
          split
          · rfl
          · simp only [List.getD_eq_getElem?_getD]
            by_cases hn : n < acc.length
            · rw [List.getElem?_append_left hn]
            · rw [List.getElem?_append_right (by omega), List.getElem?_eq_none (l := acc) (by omega)]
              cases h : n - acc.length <;> simp
        generalize hacc : (if (acc.length : Int) - 1 ≥ index then acc else acc ++ [[]]) = acc1 at hlen hget
        simp only [List.getElem?_eq_getElem hlen]
        obtain ⟨acc', e, hm⟩ := mergeNode_spec rest (acc1.set index (acc1[index] ++ ids)) (index + 1) (by simp; omega)
        refine ⟨acc', e, fun n x => ?_⟩
        rw [hm, getD_set hlen]
        by_cases hn : index = n
        · subst hn
          have e1 : acc1[index] = acc.getD index [] := by
            rw [← hget]; simp [List.getD_eq_getElem?_getD, List.getElem?_eq_getElem hlen]
          simp only [if_true, e1, List.mem_append, Nat.sub_self, List.getD_cons_zero]
          constructor
          · rintro ((h | h) | h)
            · exact .inl h
            · exact .inr ⟨Nat.le_refl _, hb, h⟩
            · omega
          · rintro (h | h)
            · exact .inl (.inl h)
            · exact .inl (.inr h.2.2)
        · rw [if_neg (by omega), hget]
          apply or_congr Iff.rfl
          constructor
          · rintro ⟨h1, h2, h3⟩
            refine ⟨by omega, h2, ?_⟩
            have : n - index = (n - (index + 1)) + 1 := by omega
            rw [this]; simpa using h3
          · rintro ⟨h1, h2, h3⟩
            refine ⟨by omega, h2, ?_⟩
            have : n - index = (n - (index + 1)) + 1 := by omega
            rw [this] at h3; simpa using h3

theorem foldNodes_spec {min max : Option Int} {B : Type} : ∀ (nodes : List (B × IdNode)) (acc : List (List Nat)),
    ∃ acc', nodes.foldl (fun a vn => a.bind (fun a => mergeNode min max a 0 vn.2)) (some acc) = some acc' ∧
      ∀ n x, x ∈ acc'.getD n [] ↔ x ∈ acc.getD n [] ∨ ∃ vn ∈ nodes, inBounds min max (n + 1) = true ∧ x ∈ vn.2.getD n []
  | [], acc => ⟨acc, rfl, fun n x => by simp⟩
  | vn :: nodes, acc => by
    obtain ⟨a1, e1, h1⟩ := mergeNode_spec (min := min) (max := max) vn.2 acc 0 (Nat.zero_le _)
    obtain ⟨a2, e2, h2⟩ := foldNodes_spec nodes a1
    refine ⟨a2, ?_, fun n x => ?_⟩
    · rw [List.foldl_cons, Option.bind_some, e1]; exact e2
    · rw [h2, h1]; simp only [Nat.zero_le, true_and, Nat.sub_zero, List.mem_cons, exists_eq_or_imp, or_assoc]

section
variable [LawfulKey K]

theorem keyIds_spec {t : ATree K V} {ents : List (Nat × KVs K)} (h : IxInv t.keys ents) {mq : MatchQuery K} {k : GoString} {m : MatchValue K}
    (hv : ValidTR m.tr) :
    ∃ ids, keyIds t mq k m = some ids ∧ ∀ n x, x ∈ ids.getD n [] ↔
      ∃ e ∈ ents, e.1 = x ∧ e.2.length = n + 1 ∧ inBounds mq.min mq.max (n + 1) = true ∧ ∃ v, valueOf e.2 k = some v ∧ equalsMatch m.value m.tr v = true := by
  obtain ⟨ids, e, hm⟩ := foldNodes_spec (min := mq.min) (max := mq.max)
    (((alookup seq k t.keys).getD []).filter (fun vn => treeSelects .eq m.value m.tr vn.1)) []
  refine ⟨ids, e, fun n x => ?_⟩
  rw [hm]
  have hs := mem_keyScan h (k := k) (p := fun v => treeSelects .eq m.value m.tr v) (fun _ _ e => treeSelects_congr e)
    (min := some ((n : Int) + 1)) (max := some ((n : Int) + 1)) (x := x)
  have hin : ∀ j : Nat, inBounds (some ((n : Int) + 1)) (some ((n : Int) + 1)) j = true ↔ j = n + 1 := by
    intro j; simp [inBounds]; omega
  simp only [List.mem_flatMap, mem_nodeIds, hin, treeSelects_equals hv] at hs
  simp only [treeSelects_equals hv]
  constructor
  · rintro (hx | ⟨vn, hvn, hb, hx⟩)
    · simp at hx
    · obtain ⟨e, he, h1, h2, h3⟩ := hs.1 ⟨vn, hvn, n, rfl, hx⟩
      exact ⟨e, he, h1, h2, hb, h3⟩
  · rintro ⟨e, he, h1, h2, hb, h3⟩
    obtain ⟨vn, hvn, j, hj, hx⟩ := hs.2 ⟨e, he, h1, h2, h3⟩
    have : j = n := by omega
    subst this
    exact .inr ⟨vn, hvn, hb, hx⟩

theorem foundKeys_spec {t : ATree K V} {ents : List (Nat × KVs K)} (h : IxInv t.keys ents) {mq : MatchQuery K} :
    ∀ (l : List (GoString × MatchValue K)), (l.map (·.1)).Nodup → (∀ r ∈ l, ValidTR r.2.tr) →
    ∃ found, foundKeys t mq l = some found ∧ (found.map (·.1)).Sublist (l.map (·.1)) ∧
      ∀ r ∈ l, ∀ n x, x ∈ ((alookup seq r.1 found).getD []).getD n [] ↔
        ∃ e ∈ ents, e.1 = x ∧ e.2.length = n + 1 ∧ inBounds mq.min mq.max (n + 1) = true ∧ ∃ v, valueOf e.2 r.1 = some v ∧ equalsMatch r.2.value r.2.tr v = true
  | [], _, _ => ⟨[], rfl, List.Sublist.refl _, by simp⟩
  | r :: rest, hnd, hv => by
    simp only [List.map_cons, List.nodup_cons] at hnd
    obtain ⟨found, ef, hsub, hm⟩ := foundKeys_spec h rest hnd.2 (fun r hr => hv r (by simp [hr]))
    obtain ⟨ids, ei, hi⟩ := keyIds_spec h (mq := mq) (k := r.1) (m := r.2) (hv r (by simp))
    have hnot : alookup seq r.1 found = none := by
      rw [alookup_none]
      intro x hx
      simp only [seq, beq_eq_false_iff_ne]
      intro he
      exact hnd.1 (hsub.subset (he ▸ List.mem_map.2 ⟨x, hx, rfl⟩))
    refine ⟨_, by rw [foundKeys, ei, ef], ?_, ?_⟩
    · split
      · exact hsub.cons _
      · exact hsub.cons_cons _
    · intro r' hr' n x
      rcases List.mem_cons.1 hr' with rfl | hr'
      · rw [← hi]
        split
        · rename_i hem
          rw [hnot]; simp at hem; subst hem; simp
        · rw [alookup_cons, if_pos (seq_equiv.refl _)]; rfl
      · rw [← hm r' hr']
        have hne : seq r.1 r'.1 = false := by
          simp only [seq, beq_eq_false_iff_ne]
          intro he; exact hnd.1 (he ▸ List.mem_map.2 ⟨r', hr', rfl⟩)
        split
        · rfl
        · rw [alookup_cons, hne]; rfl

end

theorem groupLoop_pos {found : List (GoString × List (List Nat))} {g : List GoString} : ∀ (ks : List GoString) (i : Nat) (s : GSet), 0 < i → s.Nodup → g ≠ [] →
    (groupIds.loop found g i s ks).Nodup ∧ ∀ x, x ∈ groupIds.loop found g i s ks ↔ x ∈ s ∧ ∀ k ∈ ks, x ∈ ((alookup seq k found).getD []).getD (g.length - 1) []
  | [], i, s, _, hs, _ => ⟨hs, fun x => by simp [groupIds.loop]⟩
  | k :: ks, i, s, hi, hs, hg => by
    rw [groupIds.loop]
    have hpos : 0 < g.length := List.length_pos_iff.2 hg
    simp only
    split
    · rename_i hl
      refine ⟨List.nodup_nil, fun x => ?_⟩
      constructor
      · intro hx; cases hx
      · rintro ⟨_, hx⟩
        have := length_of_mem (hx k (by simp)); omega
    · rw [if_neg (by omega)]
      obtain ⟨h1, h2⟩ := groupLoop_pos ks (i + 1) (s.inter (((alookup seq k found).getD []).getD (g.length - 1) [])) (by omega) GSet.nodup_inter hg
      refine ⟨h1, fun x => ?_⟩
      rw [h2, GSet.mem_inter]
      simp only [List.mem_cons, forall_eq_or_imp, and_assoc]

theorem groupIds_spec {found : List (GoString × List (List Nat))} {g : List GoString} (hg : g ≠ []) :
    (groupIds found g).Nodup ∧ ∀ x, x ∈ groupIds found g ↔ ∀ k ∈ g, x ∈ ((alookup seq k found).getD []).getD (g.length - 1) [] := by
  unfold groupIds
  have hpos : 0 < g.length := List.length_pos_iff.2 hg
  obtain ⟨k, ks, hgk⟩ := List.exists_cons_of_ne_nil hg
  have key : ∀ l, l = k :: ks → (groupIds.loop found g 0 [] l).Nodup ∧ ∀ x, x ∈ groupIds.loop found g 0 [] l ↔ ∀ k ∈ l, x ∈ ((alookup seq k found).getD []).getD (g.length - 1) [] := by
    rintro l rfl
    rw [groupIds.loop]
    simp only
    split
    · rename_i hl
      refine ⟨List.nodup_nil, fun x => ?_⟩
      constructor
      · intro hx; cases hx
      · intro hx
        have := length_of_mem (hx k (by simp)); omega
    · rw [if_pos trivial]
      obtain ⟨h1, h2⟩ := groupLoop_pos (found := found) ks 1 (GSet.addBulk [] (((alookup seq k found).getD []).getD (g.length - 1) [])) (by omega)
        (GSet.nodup_addBulk List.nodup_nil) hg
      refine ⟨h1, fun x => ?_⟩
      rw [h2, GSet.mem_addBulk]
      simp
  exact key g hgk

theorem sublist_eq_filter {A : Type} [DecidableEq A] {l keys : List A} (h : l.Sublist keys) (nd : keys.Nodup) : l = keys.filter (fun k => decide (k ∈ l)) := by
  induction h with
  | slnil => rfl
  | cons a h ih =>
    rename_i l keys
    simp only [List.nodup_cons] at nd
    rw [List.filter_cons, if_neg (by simpa using fun ha => nd.1 (h.subset ha))]
    exact ih nd.2
  | cons_cons a h ih =>
    rename_i l keys
    simp only [List.nodup_cons] at nd
    rw [List.filter_cons, if_pos (by simp)]
    congr 1
    rw [ih nd.2]
    apply List.filter_congr
    intro x hx
    have hxa : x ≠ a := fun e => nd.1 (e ▸ hx)
    have := ih nd.2
    rw [← this]; simp [hxa]

theorem sublist_ext {A : Type} [DecidableEq A] {l l' keys : List A} (h : l.Sublist keys) (h' : l'.Sublist keys) (nd : keys.Nodup)
    (he : ∀ x, x ∈ l ↔ x ∈ l') : l = l' := by
  rw [sublist_eq_filter h nd, sublist_eq_filter h' nd]
  apply List.filter_congr; intro x _; simp [he]

theorem perm_of_subset {A : Type} [DecidableEq A] {l l' : List A} (nd : l.Nodup) (hs : ∀ x ∈ l, x ∈ l') (hl : l.length = l'.length) : l.Perm l' := by
  have hsub : l.Subperm l' := List.subperm_of_subset nd hs
  exact hsub.perm_of_length_le (by omega)

section
variable [LawfulKey K]

/-- A match is exact. -/
theorem matchAction_spec {t : ATree K V} (h : Inv t) {mq : MatchQuery K} (hv : ValidMatch mq) {shuffle : List GoString → List GoString}
    (hsh : ∀ l, (shuffle l).Perm l) :
    (∃ l, t.matchAction shuffle mq = some l ∧ ¬ (mq.min.getD 0 > mq.max.getD (-1) ∧ mq.max.getD (-1) ≠ -1) ∧ l.Perm (t.items.filter (fun i => covered mq i.kvs))) ∨
    (t.matchAction shuffle mq = none ∧ mq.min.getD 0 > mq.max.getD (-1) ∧ mq.max.getD (-1) ≠ -1) := by
  obtain ⟨found, ef, hsub, hm⟩ := foundKeys_spec h.ix (mq := mq) mq.kvs hv.2.1 hv.2.2
  unfold ATree.matchAction
  rw [ef]
  simp only [genPermutations]
  by_cases hp : mq.min.getD 0 > mq.max.getD (-1) ∧ mq.max.getD (-1) ≠ -1
  · right; rw [if_pos hp]; exact ⟨rfl, hp⟩
  left
  rw [if_neg hp]
  refine ⟨_, rfl, hp, ?_⟩
  generalize hg : stableSort groupLe (genPairs (mq.min.getD 0) (mq.max.getD (-1)) (shuffle (found.map (·.1)))) = groups
  have hkeys : (shuffle (found.map (·.1))).Nodup := ((hsh _).nodup_iff).2 (hsub.nodup hv.2.1)
  have hgnd : groups.Nodup := by rw [← hg]; exact stableSort_perm.nodup_iff.2 (nodup_genPairs hkeys)
  have hgm : ∀ g, g ∈ groups ↔ g ≠ [] ∧ g.Sublist (shuffle (found.map (·.1))) ∧ sizeOk (mq.min.getD 0) (mq.max.getD (-1)) g.length = true := by
    intro g; rw [← hg, stableSort_perm.mem_iff, mem_genPairs]
  -- what a group finds
  have hfind : ∀ g, g ∈ groups → ∀ x, x ∈ groupIds found g → ∃ i ∈ t.items, i.id = x ∧ covered mq i.kvs = true ∧ g.Perm (i.kvs.map (·.1)) := by
    intro g hgg x hx
    obtain ⟨hne, hgs, _⟩ := (hgm g).1 hgg
    have hgnd' : g.Nodup := hgs.nodup hkeys
    have hall := ((groupIds_spec hne).2 x).1 hx
    have hmq : ∀ k ∈ g, ∃ r ∈ mq.kvs, r.1 = k := by
      intro k hk
      have := hsub.subset ((hsh _).mem_iff.1 (hgs.subset hk))
      obtain ⟨r, hr, rfl⟩ := List.mem_map.1 this
      exact ⟨r, hr, rfl⟩
    have hpos : 0 < g.length := List.length_pos_iff.2 hne
    obtain ⟨k0, hk0⟩ := List.exists_mem_of_ne_nil g hne
    obtain ⟨r0, hr0, rfl⟩ := hmq k0 hk0
    obtain ⟨e, he, hex, hel, hb, _⟩ := (hm r0 hr0 _ _).1 (hall _ hk0)
    obtain ⟨i, hi, rfl⟩ := List.mem_map.1 he
    simp only at hex hel
    have hlen : i.kvs.length = g.length := by omega
    -- every key of the group is a key of the item with a matching value
    have hkey : ∀ k ∈ g, ∃ r ∈ mq.kvs, r.1 = k ∧ ∃ v, valueOf i.kvs k = some v ∧ equalsMatch r.2.value r.2.tr v = true := by
      intro k hk
      obtain ⟨r, hr, rfl⟩ := hmq k hk
      obtain ⟨e', he', hex', _, _, v, hv', hq⟩ := (hm r hr _ _).1 (hall _ hk)
      have := ent_eq h.ix.ids he he' (hex.trans hex'.symm)
      subst this
      exact ⟨r, hr, rfl, v, hv', hq⟩
    have hperm : g.Perm (i.kvs.map (·.1)) := by
      apply perm_of_subset hgnd'
      · intro k hk
        obtain ⟨_, _, _, v, hv', _⟩ := hkey k hk
        exact List.mem_map.2 ⟨_, valueOf_mem hv', rfl⟩
      · simp [hlen]
    refine ⟨i, hi, hex, ?_, hperm⟩
    unfold covered
    rw [Bool.and_eq_true]
    constructor
    · rw [List.all_eq_true]
      intro kv hkv
      obtain ⟨r, hr, hrk, v, hv', hq⟩ := hkey kv.1 (hperm.mem_iff.2 (List.mem_map.2 ⟨kv, hkv, rfl⟩))
      rw [valueOf_of_mem (h.valid hi).2 hkv] at hv'
      cases hv'
      rw [List.any_eq_true]
      exact ⟨r, hr, by simp [hrk, hq]⟩
    · rw [← inBounds_eq, hlen]
      have : g.length - 1 + 1 = g.length := by omega
      rw [← this]; exact hb
  have hr : Repr t (groups.flatMap (groupIds found)) (fun i => covered mq i.kvs) := by
    constructor
    · rw [List.Nodup, List.pairwise_flatMap]
      refine ⟨fun g hgg => (groupIds_spec ((hgm g).1 hgg).1).1, ?_⟩
      refine hgnd.imp_of_mem ?_
      intro g g' hgg hgg' hne x hx y hy hxy
      subst hxy
      obtain ⟨i, hi, hix, _, hp1⟩ := hfind g hgg x hx
      obtain ⟨j, hj, hjx, _, hp2⟩ := hfind g' hgg' x hy
      have := h.item_eq hi hj (hix.trans hjx.symm); subst this
      exact hne (sublist_ext ((hgm g).1 hgg).2.1 ((hgm g').1 hgg').2.1 hkeys (fun k => (hp1.trans hp2.symm).mem_iff))
    · intro x
      rw [List.mem_flatMap]
      constructor
      · rintro ⟨g, hgg, hx⟩
        obtain ⟨i, hi, h1, h2, _⟩ := hfind g hgg x hx
        exact ⟨i, hi, h1, h2⟩
      · rintro ⟨i, hi, rfl, hc⟩
        simp only [covered, Bool.and_eq_true, List.all_eq_true, List.any_eq_true] at hc
        obtain ⟨hc, hsz⟩ := hc
        have hvi := h.valid hi
        have hpos : 0 < i.kvs.length := List.length_pos_iff.2 hvi.1
        have hin : ∀ k ∈ i.kvs.map (·.1), i.id ∈ ((alookup seq k found).getD []).getD (i.kvs.length - 1) [] := by
          intro k hk
          obtain ⟨kv, hkv, rfl⟩ := List.mem_map.1 hk
          obtain ⟨r, hr, hq⟩ := hc kv hkv
          simp only [Bool.and_eq_true, beq_iff_eq] at hq
          rw [← hq.1]
          refine (hm r hr _ _).2 ⟨(i.id, i.kvs), List.mem_map.2 ⟨i, hi, rfl⟩, rfl, by simp only; omega, ?_, kv.2, ?_, hq.2⟩
          · have : i.kvs.length - 1 + 1 = i.kvs.length := by omega
            rw [this, inBounds_eq]; exact hsz
          · rw [hq.1]; exact valueOf_of_mem hvi.2 hkv
        have hperm : ((shuffle (found.map (·.1))).filter (fun k => decide (k ∈ i.kvs.map (·.1)))).Perm (i.kvs.map (·.1)) := by
          rw [List.perm_ext_iff_of_nodup (hkeys.filter _) hvi.2]
          intro k
          rw [List.mem_filter, decide_eq_true_eq]
          constructor
          · exact fun hk => hk.2
          · intro hk
            refine ⟨(hsh _).mem_iff.2 ?_, hk⟩
            have := hin k hk
            cases hl : alookup seq k found with
            | none => rw [hl] at this; simp at this
            | some ids =>
              obtain ⟨k', hm', hk'⟩ := alookup_mem hl
              simp [seq] at hk'; subst hk'
              exact List.mem_map.2 ⟨_, hm', rfl⟩
        have hlen : ((shuffle (found.map (·.1))).filter (fun k => decide (k ∈ i.kvs.map (·.1)))).length = i.kvs.length := by
          rw [hperm.length_eq]; simp
        have hne : (shuffle (found.map (·.1))).filter (fun k => decide (k ∈ i.kvs.map (·.1))) ≠ [] := by
          intro hnil; rw [hnil] at hlen; simp at hlen; omega
        refine ⟨(shuffle (found.map (·.1))).filter (fun k => decide (k ∈ i.kvs.map (·.1))), (hgm _).2 ⟨hne, List.filter_sublist, ?_⟩, ?_⟩
        · rw [hlen]
          simp only [sizeInside, Bool.and_eq_true, Option.all] at hsz
          simp only [sizeOk, Bool.and_eq_true, Bool.or_eq_true, decide_eq_true_eq]
          obtain ⟨s1, s2⟩ := hsz
          constructor
          · cases hmin : mq.min with
            | none => simp
            | some m => rw [hmin] at s1; simpa using s1
          · cases hmax : mq.max with
            | none => simp
            | some m => rw [hmax] at s2; left; simpa using s2
        · rw [(groupIds_spec hne).2]
          intro k hk
          rw [hlen]
          exact hin k (hperm.mem_iff.1 hk)
  exact hr.items h

end
end Willow.Assoc
