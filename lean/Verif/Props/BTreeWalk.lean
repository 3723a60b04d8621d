import Verif.Proofs.BTreeWalkInv
import Verif.Props.BTreeConc
set_option linter.unusedSimpArgs false
/-
Properties C99, C100: range searches of the ordered tree (Iterate, FindNotEqual, FindLessThan, FindLessThanOrEqual, FindGreaterThan,
FindGreaterThanOrEqual) while any number of other calls and searches are under way.

`WRun n P w0 evs w`: some interleaving of the steps of any number of calls and searches that leads from `w0` to `w`; `evs` are
the calls and returns seen, in order, and `P` holds all the time.
-/
namespace Willow.Props
open BTree Spec KeyOps LawfulKey BTreeConc BTreeWalk

variable {V : Type}

/-- Nobody has begun a search with this number. -/
def NoWalk (id : Nat) (w : BTreeWalk.W Key V) : Prop := ∀ y ∈ w.walks, y.id ≠ id
/-- Any steps from a new tree to this state. -/
def Reaches (n : Nat) (w : BTreeWalk.W Key V) : Prop := ∃ evs, WRun n (fun _ => True) W.init evs w

theorem reaches_inv {n : Nat} (hn : 2 ≤ n) {w : BTreeWalk.W Key V} (h : Reaches n w) : CInv n w := by
  obtain ⟨evs, h⟩ := h
  exact (wrun_sim hn h).1

/-! ## C99 – a range search next to other calls -/

/-- C99.  A pair that is in the tree from before the search begins until it is over: the callback of the search gets it exactly
once if its key belongs to the range, and never otherwise. -/
theorem C99_stable (n : Nat) (hn : 2 ≤ n) (x : Key × V) (id : Nat)
    (w0 w : BTreeWalk.W Key V) (evs : List (Event Key V)) (h0 : Reaches n w0) (hno : NoWalk id w0)
    (hr : WRun n (W.stores x) w0 evs w) (y : BTreeWalk.Walk Key V) (hy : y ∈ w.walks) (hid : y.id = id) (hov : w.over id) :
    (y.range.has x.1 → ExactlyOnce x y.seen) ∧ (¬ y.range.has x.1 → x ∉ y.seen) := by
  have c := reaches_inv hn h0
  have g := good_run hn hr c (id := id) (fun z hz h => absurd h (hno z hz))
  refine (g y hy hid).2 ?_
  rw [hid, (behindO_of_lay (lay_of_over hov)).2]
  exact stores_allO.1 (run_holds hr)

/-- C99.  A pair that is never in the tree while the search is under way is not reported. -/
theorem C99_absent (n : Nat) (hn : 2 ≤ n) (x : Key × V) (id : Nat)
    (w0 w : BTreeWalk.W Key V) (evs : List (Event Key V)) (h0 : Reaches n w0) (hno : NoWalk id w0)
    (hr : WRun n (fun w => ¬ w.stores x) w0 evs w) (y : BTreeWalk.Walk Key V) (hy : y ∈ w.walks) (hid : y.id = id) : x ∉ y.seen :=
  unseen_run hn hr (reaches_inv hn h0) (fun z hz h => absurd h (hno z hz)) y hy hid

/-- C99.  Everything the callback of a search gets belongs to its range. -/
theorem C99_in_range (n : Nat) (hn : 2 ≤ n) (w : BTreeWalk.W Key V) (h : Reaches n w)
    (y : BTreeWalk.Walk Key V) (hy : y ∈ w.walks) (x : Key × V) (hx : x ∈ y.seen) : y.range.has x.1 := by
  obtain ⟨evs, h⟩ := h
  exact range_run hn h y hy x hx

/-- C99.  A pair that comes into the tree while the search is under way and stays there is reported at most once. -/
theorem C99_created_meanwhile (n : Nat) (hn : 2 ≤ n) (x : Key × V) (id : Nat)
    (w0 w1 w2 w : BTreeWalk.W Key V) (e1 e2 : List (Event Key V)) (ev : Option (Event Key V)) (h0 : Reaches n w0) (hno : NoWalk id w0)
    (hr1 : WRun n (fun w => ¬ w.stores x) w0 e1 w1) (hs : WStep n w1 ev w2) (hr2 : WRun n (W.stores x) w2 e2 w)
    (y : BTreeWalk.Walk Key V) (hy : y ∈ w.walks) (hid : y.id = id) : x ∉ y.seen ∨ ExactlyOnce x y.seen := by
  have c0 := reaches_inv hn h0
  have c1 := cinv_run hn hr1 c0
  have u1 := unseen_run hn hr1 c0 (id := id) (fun z hz h => absurd h (hno z hz))
  have u2 := unseen_step hs c1 (run_holds hr1) u1
  have m2 : Most x id w2 := fun z hz h => ⟨fun _ => u2 z hz h, .inl (u2 z hz h)⟩
  exact (most_run hn hr2 (cinv_step hn hs c1) m2 y hy hid).2

/-- C99.  A pair that is deleted while the search is under way and does not come back is reported at most once. -/
theorem C99_deleted_meanwhile (n : Nat) (hn : 2 ≤ n) (x : Key × V) (id : Nat)
    (w0 w1 w2 w : BTreeWalk.W Key V) (e1 e2 : List (Event Key V)) (ev : Option (Event Key V)) (h0 : Reaches n w0) (hno : NoWalk id w0)
    (hr1 : WRun n (W.stores x) w0 e1 w1) (hs : WStep n w1 ev w2) (hr2 : WRun n (fun w => ¬ w.stores x) w2 e2 w)
    (y : BTreeWalk.Walk Key V) (hy : y ∈ w.walks) (hid : y.id = id) : x ∉ y.seen ∨ ExactlyOnce x y.seen := by
  have c0 := reaches_inv hn h0
  have c1 := cinv_run hn hr1 c0
  have m1 := most_run hn hr1 c0 (id := id) (fun z hz h => absurd h (hno z hz))
  have hns : ¬ w2.stores x := by
    have : ∀ {w2 w : BTreeWalk.W Key V} {e2}, WRun n (fun w => ¬ w.stores x) w2 e2 w → ¬ w2.stores x := by
      intro w2 w e2 h
      induction h with
      | nil h0 => exact h0
      | step h hs hp ih => exact ih
    exact this hr2
  have s2 := some1_step hs c1 hns (fun z hz h => (m1 z hz h).2)
  exact some1_run hn hr2 (cinv_step hn hs c1) s2 y hy hid

/-! ## C100 – calls next to range searches -/

/-- C100.  Whatever the interleaving of any number of calls and range searches, what the clients see of the calls is a history of a
map that performs each call in one indivisible step between the call and its return, and the tree holds exactly the items of that map. -/
theorem C100_linearizable (n : Nat) (hn : 2 ≤ n) (w : BTreeWalk.W Key V)
    (evs : List (Event Key V)) (hr : WRun n (fun _ => True) W.init evs w) :
    ∃ a, AtomicMap.Run AtomicMap.init evs a ∧ (∀ kv, w.stores kv ↔ a.items kv.1 = some kv) := by
  obtain ⟨c, a, h1, h2⟩ := wrun_sim hn hr
  have hp : ∀ kv, w.stores kv ↔ kv ∈ itemsOf (erS w.st).root := by
    intro kv
    rw [stores_allO]
    simp only [erS]
    cases w.st.root with
    | none => simp [allO, itemsOf]
    | some r => simp only [allO, itemsOf, Option.map_some]; exact flat_all.symm
  have hs : Sorted (itemsOf (erS w.st).root) := by
    cases hroot : (erS w.st).root with
    | none => exact List.Pairwise.nil
    | some r =>
      obtain ⟨h, wf⟩ := c.inv.tree r hroot
      exact chain_sorted (wf_chain wf)
  refine ⟨a, h1, fun kv => ?_⟩
  rw [hp, h2.items]
  exact ⟨fun hk => lookupL_of_mem hs hk (keq_refl _), fun hk => (lookupL_keq hk).1⟩

/-! ### An example: a search over all keys between 3 and 7 passes a `Create 2` and a `Delete 5` -/

/-- The steps until the tree holds 5 in the root and 3 and 7 in the two leaves below. -/
theorem three_items : ∃ evs, WRun 2 (fun _ => True) (W.init : BTreeWalk.W Key Nat) evs
    ⟨⟨[], none, [], some (.mk none [] [(ki 5, 50)] [.mk none [] [(ki 3, 30)] [], .mk none [] [(ki 7, 70)] []]), []⟩, []⟩ := by
  have r : WRun 2 (fun _ => True) (W.init : BTreeWalk.W Key Nat) [] W.init := .nil trivial
  have r := r.step (.other (.call 1 (.create (ki 5) 50))) trivial
  have r := r.step (.other (.lock (wa := []) rfl rfl rfl)) trivial
  have r := r.step (.other (.enterCreate rfl rfl ⟨rfl, rfl⟩)) trivial
  have r := r.step (.other (.node rfl (.chain rfl rfl (.insert rfl rfl (by decide +kernel))))) trivial
  have r := r.step (.other (.ret (fa := []) rfl)) trivial
  have r := r.step (.other (.call 2 (.create (ki 3) 30))) trivial
  have r := r.step (.other (.lock (wa := []) rfl rfl rfl)) trivial
  have r := r.step (.other (.enterCreate rfl rfl ⟨rfl, rfl⟩)) trivial
  have r := r.step (.other (.node rfl (.chain rfl rfl (.insert rfl rfl (by decide +kernel))))) trivial
  have r := r.step (.other (.ret (fa := []) rfl)) trivial
  have r := r.step (.other (.call 3 (.create (ki 7) 70))) trivial
  have r := r.step (.other (.lock (wa := []) rfl rfl rfl)) trivial
  have r := r.step (.other (.enterCreate rfl rfl ⟨rfl, rfl⟩)) trivial
  have r := r.step (.other (.inner rfl rfl rfl rfl rfl rfl (.insertOver rfl rfl (by decide +kernel)))) trivial
  have r := r.step (.other (.grow rfl rfl rfl rfl)) trivial
  have r := r.step (.other (.ret (fa := []) rfl)) trivial
  exact ⟨_, r⟩

/-- The tree of the example; the lists are who shares the locks of the root and the leaves, and the values of the left leaf. -/
def exTree (root left right : List (Nat × Op Key Nat)) (kvs : List (Key × Nat)) : CNode Key Nat :=
  .mk none root [(ki 5, 50)] [.mk none left kvs [], .mk none right [(ki 7, 70)] []]
/-- The lock of search 9. -/
def exLock : Nat × Op Key Nat := (9, .create (ki 0) 0)

/-- The search for keys less than 7 while 2 is created. -/
theorem search_run : ∃ evs, WRun 2 (W.stores (ki 3, 30)) ⟨⟨[], none, [], some (exTree [] [] [] [(ki 3, 30)]), []⟩, []⟩ evs
    ⟨⟨[], none, [], some (exTree [] [] [] [(ki 2, 20), (ki 3, 30)]), []⟩, [⟨9, .lessThan (ki 7) 0, [(ki 5, 50), (ki 3, 30)]⟩]⟩ := by
  have r : WRun 2 (W.stores (ki 3, 30)) ⟨⟨[], none, [], some (exTree [] [] [] [(ki 3, 30)]), []⟩, []⟩ []
    ⟨⟨[], none, [], some (exTree [] [] [] [(ki 3, 30)]), []⟩, []⟩ := .nil ⟨_, rfl, .inr (.inl (.inl (.head _)))⟩
  have r := r.step (.begin 9 (.lessThan (ki 7) 0) (.create (ki 0) 0) rfl rfl rfl rfl (by simp)) ⟨_, rfl, .inr (.inl (.inl (.head _)))⟩
  have r := r.step (w' := ⟨⟨[], none, [], some (exTree [] [exLock] [exLock] [(ki 3, 30)]), []⟩, [⟨9, .lessThan (ki 7) 0, [(ki 5, 50)]⟩]⟩)
    (.visit (.create (ki 0) 0) rfl (wa := []) (wb := []) rfl (.here (ra := []) (rb := []) (List.forall_mem_cons.2 ⟨rfl, List.forall_mem_cons.2 ⟨rfl, nofun⟩⟩)))
    ⟨_, rfl, .inr (.inl (.inl (.head _)))⟩
  have r := r.step (w' := ⟨⟨[], none, [], some (exTree [] [exLock] [] [(ki 3, 30)]), []⟩, [⟨9, .lessThan (ki 7) 0, [(ki 5, 50)]⟩]⟩)
    (.visit (.create (ki 0) 0) rfl (wa := []) (wb := []) rfl (.child (ca := [.mk none [exLock] [(ki 3, 30)] []]) (cb := []) (.here (ra := []) (rb := []) nofun)))
    ⟨_, rfl, .inr (.inl (.inl (.head _)))⟩
  have r := r.step (.other (.call 4 (.create (ki 2) 20))) ⟨_, rfl, .inr (.inl (.inl (.head _)))⟩
  have r := r.step (.other (.lock (wa := []) rfl rfl rfl)) ⟨_, rfl, .inr (.inl (.inl (.head _)))⟩
  have r := r.step (.other (.enterCreate rfl rfl ⟨rfl, rfl⟩)) ⟨_, rfl, .inr (.inl (.inl (.head _)))⟩
  have r := r.step (w' := ⟨⟨[], none, [], some (.mk (some ⟨4, .create (ki 2) 20, false, .down⟩) [] [(ki 5, 50)]
      [.mk none [] [(ki 3, 30)] [], .mk none [] [(ki 7, 70)] []]), []⟩, [⟨9, .lessThan (ki 7) 0, [(ki 5, 50), (ki 3, 30)]⟩]⟩)
    (.visit (.create (ki 0) 0) rfl (wa := []) (wb := []) rfl (.child (ca := []) (cb := [.mk none [] [(ki 7, 70)] []]) (.here (ra := []) (rb := []) nofun)))
    ⟨_, rfl, .inr (.inl (.inl (.head _)))⟩
  have r := r.step (.other (.node rfl (.chain rfl rfl (.descendRelease (ca := []) rfl rfl ⟨rfl, rfl⟩ rfl)))) ⟨_, rfl, .inr (.inl (.inl (.head _)))⟩
  have r := r.step (.other (.node rfl (.child (ca := []) (.chain rfl rfl (.insert rfl rfl (by decide +kernel)))))) ⟨_, rfl, .inr (.inl (.inl (.tail _ (.head _))))⟩
  have r := r.step (.other (.ret (fa := []) rfl)) ⟨_, rfl, .inr (.inl (.inl (.tail _ (.head _))))⟩
  exact ⟨_, r⟩

/-- Non-vacuity: the search of the example is over and got 3 and 5 once each. -/
example : ExactlyOnce ((ki 3, 30) : Key × Nat) [(ki 5, 50), (ki 3, 30)] := by
  obtain ⟨evs, r⟩ := search_run
  refine (C99_stable 2 (by decide) (ki 3, 30) 9 _ _ _ three_items ?_ r ⟨9, .lessThan (ki 7) 0, [(ki 5, 50), (ki 3, 30)]⟩ (.head _) rfl ?_).1 ?_
  · intro y hy; cases hy
  · intro r hr
    cases hr
    simp [exTree, holdsNode, holdsList]
  · exact ⟨by decide +kernel, by decide +kernel⟩

/-- The first part of the example once more: 2 is not there yet ... -/
theorem search_before : ∃ evs, WRun 2 (fun w => ¬ W.stores (ki 2, 20) w) ⟨⟨[], none, [], some (exTree [] [] [] [(ki 3, 30)]), []⟩, []⟩ evs
    ⟨⟨[], none, [], some (.mk none [] [(ki 5, 50)] [.mk (some ⟨4, .create (ki 2) 20, false, .down⟩) [] [(ki 3, 30)] [], .mk none [] [(ki 7, 70)] []]), []⟩,
      [⟨9, .lessThan (ki 7) 0, [(ki 5, 50), (ki 3, 30)]⟩]⟩ := by
  have no : ∀ {a b c d e f g h i ws}, ¬ W.stores (ki 2, 20)
      (⟨⟨a, b, c, some (.mk d e [(ki 5, 50)] [.mk f g [(ki 3, 30)] [], .mk h i [(ki 7, 70)] []]), []⟩, ws⟩ : BTreeWalk.W Key Nat) := by
    rintro a b c d e f g h i ws ⟨r, hr, h⟩
    cases hr
    simp [storesNode, storesList] at h
  have r : WRun 2 (fun w => ¬ W.stores (ki 2, 20) w) ⟨⟨[], none, [], some (exTree [] [] [] [(ki 3, 30)]), []⟩, []⟩ []
    ⟨⟨[], none, [], some (exTree [] [] [] [(ki 3, 30)]), []⟩, []⟩ := .nil no
  have r := r.step (.begin 9 (.lessThan (ki 7) 0) (.create (ki 0) 0) rfl rfl rfl rfl (by simp)) no
  have r := r.step (w' := ⟨⟨[], none, [], some (exTree [] [exLock] [exLock] [(ki 3, 30)]), []⟩, [⟨9, .lessThan (ki 7) 0, [(ki 5, 50)]⟩]⟩)
    (.visit (.create (ki 0) 0) rfl (wa := []) (wb := []) rfl (.here (ra := []) (rb := []) (List.forall_mem_cons.2 ⟨rfl, List.forall_mem_cons.2 ⟨rfl, nofun⟩⟩))) no
  have r := r.step (w' := ⟨⟨[], none, [], some (exTree [] [exLock] [] [(ki 3, 30)]), []⟩, [⟨9, .lessThan (ki 7) 0, [(ki 5, 50)]⟩]⟩)
    (.visit (.create (ki 0) 0) rfl (wa := []) (wb := []) rfl (.child (ca := [.mk none [exLock] [(ki 3, 30)] []]) (cb := []) (.here (ra := []) (rb := []) nofun))) no
  have r := r.step (.other (.call 4 (.create (ki 2) 20))) no
  have r := r.step (.other (.lock (wa := []) rfl rfl rfl)) no
  have r := r.step (.other (.enterCreate rfl rfl ⟨rfl, rfl⟩)) no
  have r := r.step (w' := ⟨⟨[], none, [], some (.mk (some ⟨4, .create (ki 2) 20, false, .down⟩) [] [(ki 5, 50)]
      [.mk none [] [(ki 3, 30)] [], .mk none [] [(ki 7, 70)] []]), []⟩, [⟨9, .lessThan (ki 7) 0, [(ki 5, 50), (ki 3, 30)]⟩]⟩)
    (.visit (.create (ki 0) 0) rfl (wa := []) (wb := []) rfl (.child (ca := []) (cb := [.mk none [] [(ki 7, 70)] []]) (.here (ra := []) (rb := []) nofun))) no
  have r := r.step (.other (.node rfl (.chain rfl rfl (.descendRelease (ca := []) rfl rfl ⟨rfl, rfl⟩ rfl)))) no
  exact ⟨_, r⟩

/-- Non-vacuity: until then the search has not reported it ... -/
example : ((ki 2, 20) : Key × Nat) ∉ [(ki 5, 50), (ki 3, 30)] := by
  obtain ⟨evs, r⟩ := search_before
  exact C99_absent 2 (by decide) (ki 2, 20) 9 _ _ _ three_items (fun y hy => by cases hy) r
    ⟨9, .lessThan (ki 7) 0, [(ki 5, 50), (ki 3, 30)]⟩ (.head _) rfl

/-- ... and all that it has reported is less than 7. -/
example : ∀ x ∈ [((ki 5, 50) : Key × Nat), (ki 3, 30)], (Range.lessThan (ki 7) 0).has x.1 := by
  obtain ⟨evs, r⟩ := search_before
  obtain ⟨e0, r0⟩ := three_items
  have weak : ∀ {P} {w0 w : BTreeWalk.W Key Nat} {e e0}, WRun 2 (fun _ => True) W.init e0 w0 → WRun 2 P w0 e w →
      ∃ e', WRun 2 (fun _ => True) W.init e' w := by
    intro P w0 w e e0 h0 h
    induction h with
    | nil _ => exact ⟨_, h0⟩
    | step h hs hp ih => obtain ⟨e', ih⟩ := ih; exact ⟨_, ih.step hs trivial⟩
  exact C99_in_range 2 (by decide) _ (weak r0 r) ⟨9, .lessThan (ki 7) 0, [(ki 5, 50), (ki 3, 30)]⟩ (.head _)

/-- Non-vacuity: then it is created, and the search is over without having reported it. -/
example : ((ki 2, 20) : Key × Nat) ∉ [(ki 5, 50), (ki 3, 30)] ∨ ExactlyOnce (ki 2, 20) [(ki 5, 50), (ki 3, 30)] := by
  obtain ⟨evs, r⟩ := search_before
  refine C99_created_meanwhile 2 (by decide) (ki 2, 20) 9 _ _ _ _ _ _ _ three_items (fun y hy => by cases hy) r
    (.other (.node rfl (.child (ca := []) (.chain rfl rfl (.insert rfl rfl (by decide +kernel)))))) (.nil ⟨_, rfl, .inr (.inl (.inl (.head _)))⟩)
    ⟨9, .lessThan (ki 7) 0, [(ki 5, 50), (ki 3, 30)]⟩ (.head _) rfl

/-- Non-vacuity: a search for keys less than 8 reports 7, which is then deleted, before the search is over. -/
example : ((ki 7, 70) : Key × Nat) ∉ [(ki 5, 50), (ki 7, 70)] ∨ ExactlyOnce ((ki 7, 70) : Key × Nat) [(ki 5, 50), (ki 7, 70)] := by
  have r : WRun 2 (W.stores (ki 7, 70)) ⟨⟨[], none, [], some (exTree [] [] [] [(ki 3, 30)]), []⟩, []⟩ []
    ⟨⟨[], none, [], some (exTree [] [] [] [(ki 3, 30)]), []⟩, []⟩ := .nil ⟨_, rfl, .inr (.inr (.inl (.inl (.head _))))⟩
  have r := r.step (.other (.call 4 (.create (ki 8) 80))) ⟨_, rfl, .inr (.inr (.inl (.inl (.head _))))⟩
  have r := r.step (.other (.lock (wa := []) rfl rfl rfl)) ⟨_, rfl, .inr (.inr (.inl (.inl (.head _))))⟩
  have r := r.step (.other (.enterCreate rfl rfl ⟨rfl, rfl⟩)) ⟨_, rfl, .inr (.inr (.inl (.inl (.head _))))⟩
  have r := r.step (.other (.node rfl (.chain rfl rfl (.descendRelease (ca := [.mk none [] [(ki 3, 30)] []]) rfl rfl ⟨rfl, rfl⟩ rfl)))) ⟨_, rfl, .inr (.inr (.inl (.inl (.head _))))⟩
  have r := r.step (.other (.node rfl (.child (ca := [.mk none [] [(ki 3, 30)] []]) (.chain rfl rfl (.insert rfl rfl (by decide +kernel)))))) ⟨_, rfl, .inr (.inr (.inl (.inl (.head _))))⟩
  have r := r.step (.other (.ret (fa := []) rfl)) ⟨_, rfl, .inr (.inr (.inl (.inl (.head _))))⟩
  have r := r.step (.begin 9 (.lessThan (ki 8) 0) (.create (ki 0) 0) rfl rfl rfl rfl (by simp)) ⟨_, rfl, .inr (.inr (.inl (.inl (.head _))))⟩
  have r := r.step (w' := ⟨⟨[], none, [], some (.mk none [] [(ki 5, 50)] [.mk none [exLock] [(ki 3, 30)] [], .mk none [exLock] [(ki 7, 70), (ki 8, 80)] []]), []⟩, [⟨9, .lessThan (ki 8) 0, [(ki 5, 50)]⟩]⟩)
    (.visit (.create (ki 0) 0) rfl (wa := []) (wb := []) rfl (.here (ra := []) (rb := []) (List.forall_mem_cons.2 ⟨rfl, List.forall_mem_cons.2 ⟨rfl, nofun⟩⟩)))
    ⟨_, rfl, .inr (.inr (.inl (.inl (.head _))))⟩
  have r := r.step (w' := ⟨⟨[], none, [], some (.mk none [] [(ki 5, 50)] [.mk none [exLock] [(ki 3, 30)] [], .mk none [] [(ki 7, 70), (ki 8, 80)] []]), []⟩, [⟨9, .lessThan (ki 8) 0, [(ki 5, 50), (ki 7, 70)]⟩]⟩)
    (.visit (.create (ki 0) 0) rfl (wa := []) (wb := []) rfl (.child (ca := [.mk none [exLock] [(ki 3, 30)] []]) (cb := []) (.here (ra := []) (rb := []) nofun)))
    ⟨_, rfl, .inr (.inr (.inl (.inl (.head _))))⟩
  have r := r.step (.other (.call 5 (.delete (ki 7) none))) ⟨_, rfl, .inr (.inr (.inl (.inl (.head _))))⟩
  have r := r.step (.other (.lock (wa := []) rfl rfl rfl)) ⟨_, rfl, .inr (.inr (.inl (.inl (.head _))))⟩
  have r := r.step (.other (.enterDelete rfl rfl ⟨rfl, rfl⟩)) ⟨_, rfl, .inr (.inr (.inl (.inl (.head _))))⟩
  have r := r.step (.other (.inner rfl rfl rfl rfl rfl rfl (.descendRelease (ca := [.mk none [exLock] [(ki 3, 30)] []]) rfl rfl ⟨rfl, rfl⟩ rfl))) ⟨_, rfl, .inr (.inr (.inl (.inl (.head _))))⟩
  refine C99_deleted_meanwhile 2 (by decide) (ki 7, 70) 9 _ _ _ _ _ _ _ three_items (fun y hy => by cases hy) r
    (.other (.node rfl (.child (ca := [.mk none [exLock] [(ki 3, 30)] []]) (.chain rfl rfl (.removeLeaf (kv := (ki 7, 70)) rfl rfl (by decide +kernel)))))) (.nil ?_)
    ⟨9, .lessThan (ki 8) 0, [(ki 5, 50), (ki 7, 70)]⟩ (.head _) rfl
  rintro ⟨r, hr, h⟩
  cases hr
  revert h
  show ¬ storesNode (ki 7, 70) (.mk none [] [(ki 5, 50)] [.mk none [exLock] [(ki 3, 30)] [], .mk none [] [(ki 8, 80)] []])
  simp [storesNode, storesList]

/-- Non-vacuity of C100. -/
example : ∃ evs a, AtomicMap.Run AtomicMap.init evs a ∧ a.items (ki 7) = some (ki 7, 70) := by
  obtain ⟨evs, r⟩ := three_items
  obtain ⟨a, h1, h2⟩ := C100_linearizable 2 (by decide) _ _ r
  exact ⟨evs, a, h1, (h2 (ki 7, 70)).1 ⟨_, rfl, .inr (.inr (.inl (.inl (.head _))))⟩⟩

end Willow.Props
