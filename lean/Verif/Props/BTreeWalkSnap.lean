import Verif.Proofs.BTreeWalkSnap
import Verif.Props.BTreeWalk
set_option linter.unusedSimpArgs false
/-
Property C104: a range search shows the tree as it was at one moment, the beginning of the search.

`WRun n P w0 evs w`: some interleaving of the steps of any number of calls and searches that leads from `w0` to `w`; `evs` are
the calls and returns seen, in order, and `P` holds all the time.  The search begins in the step from `w0` to `w1`.
-/
namespace Willow.Props
open BTree Spec KeyOps LawfulKey BTreeConc BTreeWalk

variable {V : Type}

/-- C104.  No call about the key is under way when the search begins.  However many calls about this and about other keys are made,
do their work and return until the search is over: the callback gets the pair exactly once if it was in the tree when the search
began and belongs to the range, and never otherwise. -/
theorem C104_snapshot_of_key (n : Nat) (hn : 2 ≤ n) (x : Key × V) (id : Nat) (w0 w1 w : BTreeWalk.W Key V)
    (e0 evs : List (Event Key V)) (ev : Option (Event Key V)) (h0 : WRun n (fun _ => True) W.init e0 w0) (hq : KeyReturned x.1 e0)
    (hno : NoWalk id w0) (hs : WStep n w0 ev w1) (hb : ¬ NoWalk id w1) (hr : WRun n (fun _ => True) w1 evs w)
    (y : BTreeWalk.Walk Key V) (hy : y ∈ w.walks) (hid : y.id = id) (hov : w.over id) :
    (w0.stores x ∧ y.range.has x.1 → ExactlyOnce x y.seen) ∧ (¬ (w0.stores x ∧ y.range.has x.1) → x ∉ y.seen) := by
  have c0 := (wrun_sim hn h0).1
  have c1 := cinv_step hn hs c0
  have hb : Begun id w1 := by
    simp only [NoWalk, Classical.not_forall, Classical.not_not] at hb
    obtain ⟨y, h1, h2⟩ := hb
    exact ⟨y, h1, h2⟩
  have g := begin_step hs hno hb (x := x) (no_op hn h0 hq)
  have ha : x ∉ aheadO id w.st.root := by rw [(behindO_of_lay (lay_of_over hov)).1]; simp
  by_cases hst : w0.stores x
  · have d := (in_run hn hr c1 (g.1 hst)).done ha y hy hid
    exact ⟨fun h => d.1 h.2, fun h => d.2 (fun h' => h ⟨hst, h'⟩)⟩
  · have d := (notin_run hn hr c1 (g.2 hst)).seen y hy hid
    exact ⟨fun h => absurd h.1 hst, fun _ => d⟩

/-- C104.  No call is under way when the search begins.  Whatever calls are made until the search is over: what the callback has got
then is what was in the tree and in the range when the search began, each pair exactly once. -/
theorem C104_snapshot (n : Nat) (hn : 2 ≤ n) (id : Nat) (w0 w1 w : BTreeWalk.W Key V)
    (e0 evs : List (Event Key V)) (ev : Option (Event Key V)) (h0 : WRun n (fun _ => True) W.init e0 w0) (hq : AllReturned e0)
    (hno : NoWalk id w0) (hs : WStep n w0 ev w1) (hb : ¬ NoWalk id w1) (hr : WRun n (fun _ => True) w1 evs w)
    (y : BTreeWalk.Walk Key V) (hy : y ∈ w.walks) (hid : y.id = id) (hov : w.over id) :
    y.seen.Nodup ∧ ∀ x, x ∈ y.seen ↔ w0.stores x ∧ y.range.has x.1 := by
  have key := fun x => C104_snapshot_of_key n hn x id w0 w1 w e0 evs ev h0 (key_of_all hn h0 hq x.1) hno hs hb hr y hy hid hov
  have mem := fun x (h : x ∈ y.seen) => Classical.byContradiction fun hc => (key x).2 hc h
  refine ⟨nodup_of_once fun x h => (key x).1 (mem x h), fun x => ⟨mem x, fun h => ?_⟩⟩
  · obtain ⟨a, b, h1, _, _⟩ := (key x).1 h
    rw [h1]; simp

/-! ### An example: a search for keys less than 8; `Create 2` is called when it has begun, and returns before it is over -/

/-- From the beginning of the search to its end. -/
theorem snap_rest : ∃ evs, WRun 2 (fun _ => True)
    ⟨⟨[], none, [], some (exTree [exLock] [] [] [(ki 3, 30)]), []⟩, [⟨9, .lessThan (ki 8) 0, []⟩]⟩ evs
    ⟨⟨[], none, [], some (exTree [] [] [] [(ki 2, 20), (ki 3, 30)]), []⟩, [⟨9, .lessThan (ki 8) 0, [(ki 5, 50), (ki 3, 30), (ki 7, 70)]⟩]⟩ := by
  have r : WRun 2 (fun _ => True) ⟨⟨[], none, [], some (exTree [exLock] [] [] [(ki 3, 30)]), []⟩, [⟨9, .lessThan (ki 8) 0, []⟩]⟩ []
    (⟨⟨[], none, [], some (exTree [exLock] [] [] [(ki 3, 30)]), []⟩, [⟨9, .lessThan (ki 8) 0, []⟩]⟩ : BTreeWalk.W Key Nat) := .nil trivial
  have r := r.step (w' := ⟨⟨[], none, [], some (exTree [] [exLock] [exLock] [(ki 3, 30)]), []⟩, [⟨9, .lessThan (ki 8) 0, [(ki 5, 50)]⟩]⟩)
    (.visit (.create (ki 0) 0) rfl (wa := []) (wb := []) rfl (.here (ra := []) (rb := []) (List.forall_mem_cons.2 ⟨rfl, List.forall_mem_cons.2 ⟨rfl, nofun⟩⟩))) trivial
  have r := r.step (w' := ⟨⟨[], none, [], some (exTree [] [] [exLock] [(ki 3, 30)]), []⟩, [⟨9, .lessThan (ki 8) 0, [(ki 5, 50), (ki 3, 30)]⟩]⟩)
    (.visit (.create (ki 0) 0) rfl (wa := []) (wb := []) rfl (.child (ca := []) (cb := [.mk none [exLock] [(ki 7, 70)] []]) (.here (ra := []) (rb := []) nofun))) trivial
  have r := r.step (.other (.call 4 (.create (ki 2) 20))) trivial
  have r := r.step (.other (.lock (wa := []) rfl rfl rfl)) trivial
  have r := r.step (.other (.enterCreate rfl rfl ⟨rfl, rfl⟩)) trivial
  have r := r.step (.other (.node rfl (.chain rfl rfl (.descendRelease (ca := []) rfl rfl ⟨rfl, rfl⟩ rfl)))) trivial
  have r := r.step (.other (.node rfl (.child (ca := []) (.chain rfl rfl (.insert rfl rfl (by decide +kernel)))))) trivial
  have r := r.step (.other (.ret (fa := []) rfl)) trivial
  have r := r.step (w' := ⟨⟨[], none, [], some (exTree [] [] [] [(ki 2, 20), (ki 3, 30)]), []⟩, [⟨9, .lessThan (ki 8) 0, [(ki 5, 50), (ki 3, 30), (ki 7, 70)]⟩]⟩)
    (.visit (.create (ki 0) 0) rfl (wa := []) (wb := []) rfl (.child (ca := [.mk none [] [(ki 2, 20), (ki 3, 30)] []]) (cb := []) (.here (ra := []) (rb := []) nofun))) trivial
  exact ⟨_, r⟩

/-- The steps until the tree holds 5 in the root and 3 and 7 in the two leaves below; all calls have returned. -/
theorem three_returned : ∃ evs, AllReturned evs ∧ WRun 2 (fun _ => True) (W.init : BTreeWalk.W Key Nat) evs
    ⟨⟨[], none, [], some (.mk none [] [(ki 5, 50)] [.mk none [] [(ki 3, 30)] [], .mk none [] [(ki 7, 70)] []]), []⟩, []⟩ := by
  have r : WRun 2 (fun _ => True) (W.init : BTreeWalk.W Key Nat) [] W.init := .nil trivial
  have r := r.step (.other (.call 1 (.create (ki 5) 50))) trivial
  have r := r.step (.other (.lock (wa := []) rfl rfl rfl)) trivial
  have r := r.step (.other (.enterCreate rfl rfl ⟨rfl, rfl⟩)) trivial
  have r := r.step (.other (.node rfl (.chain rfl rfl (.insert rfl rfl (by decide +kernel))))) trivial
  have r := r.step (.other (.ret (fa := []) rfl)) trivial
  have r := r.step (.other (.call 2 (.create (ki 3) 30))) trivial
  have r := r.step (.other (.lock (wa := []) rfl rfl rfl)) trivial
  have r := r.step (.other (.enterCreate rfl rfl ⟨rfl, rfl⟩)) trivial
  have r := r.step (.other (.node rfl (.chain rfl rfl (.insert rfl rfl (by decide +kernel))))) trivial
  have r := r.step (.other (.ret (fa := []) rfl)) trivial
  have r := r.step (.other (.call 3 (.create (ki 7) 70))) trivial
  have r := r.step (.other (.lock (wa := []) rfl rfl rfl)) trivial
  have r := r.step (.other (.enterCreate rfl rfl ⟨rfl, rfl⟩)) trivial
  have r := r.step (.other (.inner rfl rfl rfl rfl rfl rfl (.insertOver rfl rfl (by decide +kernel)))) trivial
  have r := r.step (.other (.grow rfl rfl rfl rfl)) trivial
  have r := r.step (.other (.ret (fa := []) rfl)) trivial
  refine ⟨_, ?_, r⟩
  intro id
  simp [List.countP_cons, Event.isCall, Event.isRet]

/-- Non-vacuity: the search got 3, 5 and 7 although by then 2 was in the tree as well. -/
example : ([(ki 5, 50), (ki 3, 30), (ki 7, 70)] : List (Key × Nat)).Nodup ∧
    W.stores (ki 2, 20) (⟨⟨[], none, [], some (exTree [] [] [] [(ki 2, 20), (ki 3, 30)]), []⟩, []⟩ : BTreeWalk.W Key Nat) := by
  obtain ⟨e0, h0, r0⟩ := three_returned
  obtain ⟨evs, r⟩ := snap_rest
  refine ⟨(C104_snapshot 2 (by decide) 9 _ _ _ _ _ _ r0 h0 (fun y hy => by cases hy)
    (.begin 9 (.lessThan (ki 8) 0) (.create (ki 0) 0) rfl rfl rfl rfl (by simp)) (fun h => h _ (.head _) rfl) r
    ⟨9, .lessThan (ki 8) 0, [(ki 5, 50), (ki 3, 30), (ki 7, 70)]⟩ (.head _) rfl ?_).1, ⟨_, rfl, .inr (.inl (.inl (.head _)))⟩⟩
  intro r hr
  cases hr
  simp [exTree, holdsNode, holdsList]

/-- Non-vacuity: key 2, which nobody has ever used when the search begins, and which comes into the tree meanwhile, is not reported. -/
example : ((ki 2, 20) : Key × Nat) ∉ [(ki 5, 50), (ki 3, 30), (ki 7, 70)] := by
  obtain ⟨e0, h0, r0⟩ := three_returned
  obtain ⟨evs, r⟩ := snap_rest
  refine (C104_snapshot_of_key 2 (by decide) (ki 2, 20) 9 _ _ _ _ _ _ r0 (key_of_all (by decide) r0 h0 _) (fun y hy => by cases hy)
    (.begin 9 (.lessThan (ki 8) 0) (.create (ki 0) 0) rfl rfl rfl rfl (by simp)) (fun h => h _ (.head _) rfl) r
    ⟨9, .lessThan (ki 8) 0, [(ki 5, 50), (ki 3, 30), (ki 7, 70)]⟩ (.head _) rfl ?_).2 ?_
  · intro r hr
    cases hr
    simp [exTree, holdsNode, holdsList]
  · rintro ⟨⟨r, hr, h⟩, _⟩
    cases hr
    simp [storesNode, storesList] at h

end Willow.Props
