import Verif.Proofs.BTreeWalkOnce
import Verif.Props.BTreeWalk
set_option linter.unusedSimpArgs false
/-
Property C105: a range search never reports a key twice and never misses one that is there all the time, whatever happens to the
items in the meantime.

`WRun n P w0 evs w`: some interleaving of the steps of any number of calls and searches that leads from `w0` to `w`; `evs` are
the calls and returns seen, in order, and `P` holds all the time.
-/
namespace Willow.Props
open BTree Spec KeyOps LawfulKey BTreeConc BTreeWalk

variable {V : Type}

/-- C105.  In every state any steps lead to from a new tree: no two pairs the callback of a search has got have the same key, be it
that items were deleted and created again under the same key meanwhile. -/
theorem C105_no_key_twice (n : Nat) (hn : 2 ≤ n) (w : BTreeWalk.W Key V) (h : Reaches n w) (y : BTreeWalk.Walk Key V) (hy : y ∈ w.walks) :
    y.seen.Pairwise (fun a b => same a.1 b.1 = false) := by
  obtain ⟨evs, h⟩ := h
  exact (uniq_run hn h cinv_init (id := y.id) (fun z hz _ => by cases hz) y hy rfl).2

/-- C105.  From before the search begins until it is over there is an item of key `k`, which belongs to the range: the callback gets
one item of that key, and that one exactly once. -/
theorem C105_key_found (n : Nat) (hn : 2 ≤ n) (k : Key) (id : Nat) (w0 w : BTreeWalk.W Key V) (evs : List (Event Key V)) (h0 : Reaches n w0)
    (hno : NoWalk id w0) (hr : WRun n (fun w => ∃ x : Key × V, same x.1 k = true ∧ w.stores x) w0 evs w)
    (y : BTreeWalk.Walk Key V) (hy : y ∈ w.walks) (hid : y.id = id) (hov : w.over id) (hk : y.range.has k) :
    ∃ x : Key × V, same x.1 k = true ∧ ExactlyOnce x y.seen ∧ ∀ z ∈ y.seen, same z.1 k = true → z = x := by
  have c0 := reaches_inv hn h0
  obtain ⟨x, hx, hr⟩ := key_run hn c0 hr
  have hw : ∀ {P} {w : BTreeWalk.W Key V} {e}, WRun n P w0 e w → Reaches n w := by
    intro P w e h
    obtain ⟨e0, h0⟩ := h0
    induction h with
    | nil _ => exact ⟨_, h0⟩
    | step h hs hp ih => obtain ⟨e, h⟩ := ih; exact ⟨_, h.step hs trivial⟩
  have ho := (C99_stable n hn x id w0 w evs h0 hno hr y hy hid hov).1 ((has_keq hx).2 hk)
  refine ⟨x, hx, ho, fun z hz hzk => ?_⟩
  have hp := C105_no_key_twice n hn w (hw hr) y hy
  obtain ⟨a, b, e, _, _⟩ := ho
  rw [e] at hz hp
  rw [List.pairwise_append, List.pairwise_cons] at hp
  have hzx : same z.1 x.1 = true := keq_trans hzk (keq_symm hx)
  rcases List.mem_append.1 hz with hz | hz
  · have := hp.2.2 z hz x (.head _); rw [hzx] at this; cases this
  · rcases List.mem_cons.1 hz with rfl | hz
    · rfl
    · have := hp.2.1.1 z hz
      have hxz : same x.1 z.1 = true := keq_symm hzx
      rw [hxz] at this; cases this

/-- C105.  For every key of the range a search tells what was true at some moment between its beginning and its end: there is a state
on the way in which the items of that key are those the callback has got when the search is over. -/
theorem C105_some_moment (n : Nat) (hn : 2 ≤ n) (k : Key) (id : Nat) (w0 w : BTreeWalk.W Key V) (evs : List (Event Key V)) (h0 : Reaches n w0)
    (hno : NoWalk id w0) (hr : WRun n (fun _ => True) w0 evs w)
    (y : BTreeWalk.Walk Key V) (hy : y ∈ w.walks) (hid : y.id = id) (hov : w.over id) (hk : y.range.has k) :
    ∃ w1 e1 e2, WRun n (fun _ => True) w0 e1 w1 ∧ WRun n (fun _ => True) w1 e2 w ∧
      ∀ x : Key × V, same x.1 k = true → (x ∈ y.seen ↔ w1.stores x) := by
  have reach : ∀ {w : BTreeWalk.W Key V} {e}, WRun n (fun _ => True) w0 e w → Reaches n w := by
    intro w e h
    obtain ⟨e0, h0⟩ := h0
    induction h with
    | nil _ => exact ⟨_, h0⟩
    | step h hs hp ih => obtain ⟨e, h⟩ := ih; exact ⟨_, h.step hs trivial⟩
  have hp := C105_no_key_twice n hn w (reach hr) y hy
  have one : ∀ x ∈ y.seen, same x.1 k = true → ∀ z ∈ y.seen, same z.1 k = true → z = x := by
    intro x hx hxk z hz hzk
    have hzx : same z.1 x.1 = true := keq_trans hzk (keq_symm hxk)
    have hxz : same x.1 z.1 = true := keq_symm hzx
    obtain ⟨a, b, e⟩ := List.append_of_mem hx
    rw [e] at hz hp
    rw [List.pairwise_append, List.pairwise_cons] at hp
    rcases List.mem_append.1 hz with hz | hz
    · have := hp.2.2 z hz x (.head _); rw [hzx] at this; cases this
    · rcases List.mem_cons.1 hz with rfl | hz
      · rfl
      · have := hp.2.1.1 z hz; rw [hxz] at this; cases this
  by_cases hs : ∃ x ∈ y.seen, same x.1 k = true
  · obtain ⟨x, hx, hxk⟩ := hs
    rcases run_or (P := fun w => ¬ w.stores x) hr with h | ⟨w1, e1, e2, h1, h2, h3⟩
    · exact absurd hx (C99_absent n hn x id w0 w evs h0 hno h y hy hid)
    · have h3 := Classical.not_not.1 h3
      refine ⟨w1, e1, e2, h1, h2, fun z hzk => ⟨fun hz => ?_, fun hz => ?_⟩⟩
      · rw [one x hx hxk z hz hzk]; exact h3
      · rw [stores_one (reaches_inv hn (reach h1)) h3 hz (keq_trans hzk (keq_symm hxk))]; exact hx
  · rcases run_or (P := fun w => ∃ x : Key × V, same x.1 k = true ∧ w.stores x) hr with h | ⟨w1, e1, e2, h1, h2, h3⟩
    · obtain ⟨x, h1, ⟨a, b, h2, _⟩, _⟩ := C105_key_found n hn k id w0 w evs h0 hno h y hy hid hov hk
      exact absurd ⟨x, by rw [h2]; simp, h1⟩ hs
    · exact ⟨w1, e1, e2, h1, h2, fun z hzk => ⟨fun hz => absurd ⟨z, hz, hzk⟩ hs, fun hz => absurd ⟨z, hzk, hz⟩ h3⟩⟩

/-! ### An example: a search for keys less than 8 reports 7 with value 70, then 7 is deleted and created again with value 71, and then
the search goes on -/

/-- From a new tree to the end of the search. -/
theorem again_run : Reaches 2
    (⟨⟨[], none, [], some (.mk none [] [(ki 5, 50)] [.mk none [] [(ki 3, 30)] [], .mk none [] [(ki 7, 71), (ki 8, 80)] []]), []⟩,
      [⟨9, .lessThan (ki 8) 0, [(ki 5, 50), (ki 7, 70), (ki 3, 30)]⟩]⟩ : BTreeWalk.W Key Nat) := by
  obtain ⟨evs, r⟩ := three_items
  have r := r.step (.other (.call 4 (.create (ki 8) 80))) trivial
  have r := r.step (.other (.lock (wa := []) rfl rfl rfl)) trivial
  have r := r.step (.other (.enterCreate rfl rfl ⟨rfl, rfl⟩)) trivial
  have r := r.step (.other (.node rfl (.chain rfl rfl (.descendRelease (ca := [.mk none [] [(ki 3, 30)] []]) rfl rfl ⟨rfl, rfl⟩ rfl)))) trivial
  have r := r.step (.other (.node rfl (.child (ca := [.mk none [] [(ki 3, 30)] []]) (.chain rfl rfl (.insert rfl rfl (by decide +kernel)))))) trivial
  have r := r.step (.other (.ret (fa := []) rfl)) trivial
  have r := r.step (.begin 9 (.lessThan (ki 8) 0) (.create (ki 0) 0) rfl rfl rfl rfl (by simp)) trivial
  have r := r.step (w' := ⟨⟨[], none, [], some (.mk none [] [(ki 5, 50)] [.mk none [exLock] [(ki 3, 30)] [], .mk none [exLock] [(ki 7, 70), (ki 8, 80)] []]), []⟩, [⟨9, .lessThan (ki 8) 0, [(ki 5, 50)]⟩]⟩)
    (.visit (.create (ki 0) 0) rfl (wa := []) (wb := []) rfl (.here (ra := []) (rb := []) (List.forall_mem_cons.2 ⟨rfl, List.forall_mem_cons.2 ⟨rfl, nofun⟩⟩))) trivial
  have r := r.step (w' := ⟨⟨[], none, [], some (.mk none [] [(ki 5, 50)] [.mk none [exLock] [(ki 3, 30)] [], .mk none [] [(ki 7, 70), (ki 8, 80)] []]), []⟩, [⟨9, .lessThan (ki 8) 0, [(ki 5, 50), (ki 7, 70)]⟩]⟩)
    (.visit (.create (ki 0) 0) rfl (wa := []) (wb := []) rfl (.child (ca := [.mk none [exLock] [(ki 3, 30)] []]) (cb := []) (.here (ra := []) (rb := []) nofun))) trivial
  have r := r.step (.other (.call 5 (.delete (ki 7) none))) trivial
  have r := r.step (.other (.lock (wa := []) rfl rfl rfl)) trivial
  have r := r.step (.other (.enterDelete rfl rfl ⟨rfl, rfl⟩)) trivial
  have r := r.step (.other (.inner rfl rfl rfl rfl rfl rfl (.descendRelease (ca := [.mk none [exLock] [(ki 3, 30)] []]) rfl rfl ⟨rfl, rfl⟩ rfl))) trivial
  have r := r.step (.other (.node rfl (.child (ca := [.mk none [exLock] [(ki 3, 30)] []]) (.chain rfl rfl (.removeLeaf (kv := (ki 7, 70)) rfl rfl (by decide +kernel)))))) trivial
  have r := r.step (.other (.ret (fa := []) rfl)) trivial
  have r := r.step (.other (.call 6 (.create (ki 7) 71))) trivial
  have r := r.step (.other (.lock (wa := []) rfl rfl rfl)) trivial
  have r := r.step (.other (.enterCreate rfl rfl ⟨rfl, rfl⟩)) trivial
  have r := r.step (.other (.node rfl (.chain rfl rfl (.descendRelease (ca := [.mk none [exLock] [(ki 3, 30)] []]) rfl rfl ⟨rfl, rfl⟩ rfl)))) trivial
  have r := r.step (.other (.node rfl (.child (ca := [.mk none [exLock] [(ki 3, 30)] []]) (.chain rfl rfl (.insert rfl rfl (by decide +kernel)))))) trivial
  have r := r.step (.other (.ret (fa := []) rfl)) trivial
  have r := r.step (w' := ⟨⟨[], none, [], some (.mk none [] [(ki 5, 50)] [.mk none [] [(ki 3, 30)] [], .mk none [] [(ki 7, 71), (ki 8, 80)] []]), []⟩,
      [⟨9, .lessThan (ki 8) 0, [(ki 5, 50), (ki 7, 70), (ki 3, 30)]⟩]⟩)
    (.visit (.create (ki 0) 0) rfl (wa := []) (wb := []) rfl (.child (ca := []) (cb := [.mk none [] [(ki 7, 71), (ki 8, 80)] []]) (.here (ra := []) (rb := []) nofun))) trivial
  exact ⟨_, r⟩

/-- Non-vacuity: the search of the example reports 5, 3 and 7, the old item of 7 and not the new one. -/
example : [((ki 5, 50) : Key × Nat), (ki 7, 70), (ki 3, 30)].Pairwise (fun a b => same a.1 b.1 = false) :=
  C105_no_key_twice 2 (by decide) _ again_run ⟨9, .lessThan (ki 8) 0, [(ki 5, 50), (ki 7, 70), (ki 3, 30)]⟩ (.head _)

/-- Non-vacuity: key 3 is there all the time while 2 is created, and is reported. -/
example : ∃ x : Key × Nat, same x.1 (ki 3) = true ∧ ExactlyOnce x [(ki 5, 50), (ki 3, 30)] ∧ ∀ z ∈ [((ki 5, 50) : Key × Nat), (ki 3, 30)], same z.1 (ki 3) = true → z = x := by
  obtain ⟨evs, r⟩ := search_run
  have weak : ∀ {w0 w : BTreeWalk.W Key Nat} {e}, WRun 2 (W.stores (ki 3, 30)) w0 e w →
      WRun 2 (fun w => ∃ x : Key × Nat, same x.1 (ki 3) = true ∧ w.stores x) w0 e w := by
    intro w0 w e h
    induction h with
    | nil h0 => exact .nil ⟨(ki 3, 30), keq_refl (ki 3), h0⟩
    | step h hs hp ih => exact ih.step hs ⟨(ki 3, 30), keq_refl (ki 3), hp⟩
  refine C105_key_found 2 (by decide) (ki 3) 9 _ _ _ three_items (fun y hy => by cases hy) (weak r)
    ⟨9, .lessThan (ki 7) 0, [(ki 5, 50), (ki 3, 30)]⟩ (.head _) rfl ?_ ⟨by decide +kernel, by decide +kernel⟩
  intro r hr
  cases hr
  simp [exTree, holdsNode, holdsList]

/-- Non-vacuity: key 2 is created while the search of the example is under way; it was not there at the moment the search speaks of. -/
example : ∃ w1 : BTreeWalk.W Key Nat, ¬ w1.stores (ki 2, 20) := by
  obtain ⟨evs, r⟩ := search_run
  have weak : ∀ {P} {w0 w : BTreeWalk.W Key Nat} {e}, WRun 2 P w0 e w → WRun 2 (fun _ => True) w0 e w := by
    intro P w0 w e h
    induction h with
    | nil h0 => exact .nil trivial
    | step h hs hp ih => exact ih.step hs trivial
  obtain ⟨w1, _, _, _, _, h⟩ := C105_some_moment 2 (by decide) (ki 2) 9 _ _ _ three_items (fun y hy => by cases hy) (weak r)
    ⟨9, .lessThan (ki 7) 0, [(ki 5, 50), (ki 3, 30)]⟩ (.head _) rfl (by
      intro r hr
      cases hr
      simp [exTree, holdsNode, holdsList]) ⟨by decide +kernel, by decide +kernel⟩
  exact ⟨w1, fun hw => by have := (h (ki 2, 20) (keq_refl (ki 2))).2 hw; simp at this⟩

end Willow.Props
