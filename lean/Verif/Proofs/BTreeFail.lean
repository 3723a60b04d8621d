import Verif.Proofs.BTreeTop
set_option linter.unusedSectionVars false
set_option linter.unusedSimpArgs false
set_option linter.unusedVariables false
/-! Creates whose callback fails. -/
namespace Willow.BTree
open KeyOps LawfulKey Spec

variable {K V : Type} [LawfulKey K]

/-- What a failed create does to an item list: nothing, or it shifts a stretch one to the right, doubling its first
and losing its last item. -/
def Shifted (key : K) (l l' : List (K × V)) : Prop :=
  (l' = l) ∨ ∃ A x xs C, l = A ++ (x :: xs) ++ C ∧ l' = A ++ (x :: (x :: xs).dropLast) ++ C ∧ lt key x.1 = true

theorem leafInsert_fail {key : K} {kvs : List (K × V)} (hh : hit key kvs = none) :
    Shifted key kvs (leafInsert key none kvs) ∧ (leafInsert key none kvs).length = kvs.length := by
  simp only [leafInsert]
  cases hg : kvs[scan key kvs]? with
  | none => exact ⟨.inl rfl, rfl⟩
  | some old =>
    have hlt : scan key kvs < kvs.length := (List.getElem?_eq_some_iff.1 hg).1
    have hd : kvs.drop (scan key kvs) = old :: kvs.drop (scan key kvs + 1) := by
      rw [List.drop_eq_getElem_cons hlt, (List.getElem?_eq_some_iff.1 hg).2]
    simp only []
    refine ⟨.inr ⟨kvs.take (scan key kvs), old, kvs.drop (scan key kvs + 1), [], ?_, ?_, ?_⟩, ?_⟩
    · rw [List.append_nil, ← hd, List.take_append_drop]
    · rw [List.append_nil, hd]
      congr 1
      rw [show kvs.length - scan key kvs = (kvs.length - scan key kvs - 1) + 1 by omega, List.take_succ_cons]
      congr 1
      rw [List.dropLast_eq_take]
      congr 1
      simp; omega
    · simp only [hit, hg] at hh
      cases h : lt key old.1 with
      | true => rfl
      | false => simp [h] at hh
    · simp; omega

theorem create_fail_spec {n : Nat} (hn : 2 ≤ n) (key : K) :
    ∀ (h fuel : Nat) (t : Node K V), WF n h t → Sorted (flat h t) → h < fuel →
      (∃ kv, create n key none fuel t = some (.found kv) ∧ lookupL key (flat h t) = some kv) ∨
      (∃ t', create n key none fuel t = some (.done t') ∧ lookupL key (flat h t) = none ∧ WF n h t' ∧ t'.count = t.count ∧
        Shifted key (flat h t) (flat h t')) := by
  intro h
  induction h with
  | zero =>
    intro fuel t w hs hf
    obtain ⟨fuel, rfl⟩ : ∃ f, fuel = f + 1 := ⟨fuel - 1, by omega⟩
    simp only [create]
    cases hh : hit key t.kvs with
    | some kv => exact .inl ⟨kv, rfl, lookup_hit w hs hh⟩
    | none =>
      simp only [isLeaf_zero w, if_true]
      obtain ⟨s1, s2⟩ := leafInsert_fail hh
      have hw := w.2
      have : ¬ (leafInsert key none t.kvs).length > maxValues n := by rw [s2, maxValues_eq]; omega
      rw [if_neg this]
      exact .inr ⟨_, rfl, lookup_leaf_none hs hh, ⟨rfl, by simp; omega⟩, s2, s1⟩
  | succ h ih =>
    intro fuel t w hs hf
    obtain ⟨fuel, rfl⟩ : ∃ f, fuel = f + 1 := ⟨fuel - 1, by omega⟩
    simp only [create]
    cases hh : hit key t.kvs with
    | some kv => exact .inl ⟨kv, rfl, lookup_hit w hs hh⟩
    | none =>
      have hlook := fun c hc => lookup_descend w hs hh (c := c) hc
      obtain ⟨ks1, ks2, cs1, c, cs2, e1, e2, e3, e4, e5, e6, e7, e8, e9, e10, e11, e12, e13⟩ := descend w hs hh
      simp only [isLeaf_succ w, e5, Bool.false_eq_true, if_false]
      have hlc := hlook c e5
      rcases ih fuel c e6 e13 (by omega) with ⟨kv, q1, q2⟩ | ⟨c', q1, q2, q3, q4, q5⟩
      · rw [q1]; exact .inl ⟨kv, rfl, by rw [hlc]; exact q2⟩
      · rw [q1]
        refine .inr ⟨_, rfl, by rw [hlc]; exact q2, ?_⟩
        have hw3 := w.2.2
        have hw2 := w.2.1
        have hw1 := w.1
        rw [← e4]
        subst e1
        simp only [Node.kvs_mk, Node.children_mk] at *
        rw [set_mid _ _ _ _ _ e2.symm]
        refine ⟨?_, rfl, ?_⟩
        · rw [wf_mk_succ]
          refine ⟨by simp at hw1 ⊢; omega, hw2, ?_⟩
          intro d hd
          rcases List.mem_append.1 hd with hd | hd
          · exact hw3 d (by simp [hd])
          · rcases List.mem_cons.1 hd with rfl | hd
            · exact ⟨q3, by rw [q4]; exact (hw3 c (by simp)).2⟩
            · exact hw3 d (by simp [hd])
        · rw [e8, flat_mid e2]
          rcases q5 with q5 | ⟨A, x, xs, C, y1, y2, y3⟩
          · exact .inl (by rw [q5])
          · refine .inr ⟨pre (cs1.map (flat h)) ks1 ++ A, x, xs, C ++ post (cs2.map (flat h)) ks2, ?_, ?_, y3⟩
            · rw [y1]; simp only [List.append_assoc]
            · rw [y2]; simp only [List.append_assoc]

theorem tree_create_fail_spec {b : Tree K V} {l} (hr : RepW b l) (key : K) :
    (∃ kv, b.create key none = some (b, .found kv) ∧ lookupL key l = some kv) ∨
    (∃ b' l', b.create key none = some (b', .created) ∧ lookupL key l = none ∧ Shifted key l l' ∧ (contents b').Perm l') := by
  obtain ⟨hn, hs, h3⟩ := hr
  cases hroot : b.root with
  | none =>
    simp only [hroot] at h3; subst h3
    refine .inr ⟨{ b with root := some (.mk [] []) }, [], ?_, rfl, .inl rfl, ?_⟩
    · simp only [Tree.create, hroot]
      simp [create, hit, scan, Node.isLeaf, leafInsert, Node.depth]
    · simp [contents, nodeContents, listContents]
  | some r =>
    simp only [hroot] at h3
    obtain ⟨h, a, c, d⟩ := h3
    rcases create_fail_spec hn key h (r.depth + 1) r a (by rw [c]; exact hs) (by rw [depth_of_WF a]; omega)
      with ⟨kv, q1, q2⟩ | ⟨t', q1, q2, q3, q4, q5⟩
    · refine .inl ⟨kv, ?_, by rw [← c]; exact q2⟩
      simp only [Tree.create, hroot, q1]
      rw [← hroot]
    · refine .inr ⟨{ b with root := some t' }, flat h t', ?_, by rw [← c]; exact q2, by rw [← c]; exact q5, ?_⟩
      · simp only [Tree.create, hroot, q1]
      · simp only [contents]; exact BTree.contents_perm q3

end Willow.BTree
