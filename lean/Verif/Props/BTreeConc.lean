import Verif.Proofs.BTreeConcEvents
import Verif.Props.BTree
set_option linter.unusedSimpArgs false
/-
Properties C80, C81: the ordered tree used by any number of goroutines at the same time.

`Run n St.init evs s`: some interleaving of the steps of any number of calls on a new tree of node size `n`; `evs` are
the calls and returns seen, in order, and `s` is where the tree and the calls are now.
-/
namespace Willow.Props
open BTree Spec KeyOps LawfulKey BTreeConc

variable {V : Type}

mutual
/-- All items stored in a node and below it. -/
def concNode {K V : Type} : CNode K V → List (K × V)
  | .mk _ _ kvs cs => kvs ++ concList cs
/-- All items stored in some subtrees. -/
def concList {K V : Type} : List (CNode K V) → List (K × V)
  | [] => []
  | c :: cs => concNode c ++ concList cs
end
/-- All items stored in the tree. -/
def concItems {K V : Type} (s : BTreeConc.St K V) : List (K × V) :=
  match s.root with
  | none => []
  | some r => concNode r

mutual
theorem concNode_perm {K V : Type} : ∀ t : CNode K V, (concNode t).Perm (BTreeConc.flat t)
  | .mk w rs kvs cs => by
    simp only [concNode, BTreeConc.flat]
    exact concList_perm cs kvs
theorem concList_perm {K V : Type} : ∀ (cs : List (CNode K V)) (kvs : List (K × V)), (kvs ++ concList cs).Perm (BTreeConc.weave cs kvs)
  | [], kvs => by simp [concList, BTreeConc.weave, BTreeConc.after]
  | c :: cs, kvs => by
    have h1 := concNode_perm c
    have h2 := concAfter_perm cs kvs
    simp only [concList, BTreeConc.weave]
    refine List.Perm.trans ?_ (h1.append h2)
    rw [← List.append_assoc, ← List.append_assoc]
    exact List.perm_append_comm.append_right _
theorem concAfter_perm {K V : Type} : ∀ (cs : List (CNode K V)) (kvs : List (K × V)), (kvs ++ concList cs).Perm (BTreeConc.after cs kvs)
  | [], kvs => by simp [concList, BTreeConc.after]
  | c :: cs, [] => by
    have h1 := concNode_perm c
    have h2 := concAfter_perm cs []
    simp only [concList, BTreeConc.after, List.nil_append] at *
    exact h1.append h2
  | c :: cs, kv :: kvs => by
    have h1 := concNode_perm c
    have h2 := concAfter_perm cs kvs
    simp only [concList, BTreeConc.after, List.cons_append]
    refine List.Perm.cons _ (List.Perm.trans ?_ (h1.append h2))
    rw [← List.append_assoc, ← List.append_assoc]
    exact List.perm_append_comm.append_right _
end

/-! ## C80 – calls that overlap behave as if each happened at one moment -/

/-- C80.  Whatever the interleaving of any number of calls, what the clients see is a history of a map that performs each
call in one indivisible step between the call and its return, and the tree holds exactly the items of that map, each once. -/
theorem C80_linearizable (n : Nat) (hn : 2 ≤ n) (evs : List (Event Key V)) (s : BTreeConc.St Key V) (hr : BTreeConc.Run n BTreeConc.St.init evs s) :
    ∃ a, AtomicMap.Run AtomicMap.init evs a ∧ (∀ kv, kv ∈ concItems s ↔ a.items kv.1 = some kv) ∧
      (concItems s).Pairwise (fun x y => same x.1 y.1 = false) := by
  obtain ⟨inv, a, h1, h2⟩ := run_sim hn hr
  have hp : (concItems s).Perm (itemsOf s.root) := by
    unfold concItems itemsOf
    cases s.root with
    | none => exact .refl _
    | some r => exact concNode_perm r
  have hs : Sorted (itemsOf s.root) := by
    cases hroot : s.root with
    | none => exact List.Pairwise.nil
    | some r =>
      obtain ⟨h, wf⟩ := inv.tree r hroot
      exact chain_sorted (wf_chain wf)
  refine ⟨a, h1, fun kv => ?_, ?_⟩
  · rw [hp.mem_iff, h2.items]
    exact ⟨fun hk => lookupL_of_mem hs hk (keq_refl _), fun hk => (lookupL_keq hk).1⟩
  · refine (hp.pairwise_iff ?_).2 (List.Pairwise.imp ?_ hs)
    · intro x y hxy; rw [← keq_eq_same, keq_comm, keq_eq_same]; exact hxy
    · intro x y hxy; exact not_keq_of_lt hxy

/-- Events of the example: while `Create 5` is under way, `Find 5` is called and returns the value before `Create` does. -/
def overlap : List (Event Key Nat) :=
  [.call 1 (.create (ki 5) 50), .call 2 (.find (ki 5)), .ret 2 (.find (ki 5)) (.find (some 50)), .ret 1 (.create (ki 5) 50) (.create true)]

theorem overlap_run : ∃ s, BTreeConc.Run 2 BTreeConc.St.init overlap s ∧ concItems s = [(ki 5, 50)] := by
  have r := (BTreeConc.Run.nil (n := 2) (s := (BTreeConc.St.init : BTreeConc.St Key Nat))).step (.call 1 (.create (ki 5) 50))
  have r := r.step (.call 2 (.find (ki 5)))
  have r := r.step (.lock (wa := [(2, .find (ki 5), false)]) rfl rfl rfl)
  have r := r.step (.enterCreate rfl rfl ⟨rfl, rfl⟩)
  have r := r.step (.rlock (wa := []) rfl rfl)
  have r := r.step (.node rfl (.chain rfl rfl (.insert rfl rfl (by decide +kernel))))
  have r := r.step (.renter (ra := []) rfl rfl rfl)
  have r := r.step (.node rfl (.readHit (ra := []) (kv := (ki 5, 50)) rfl rfl))
  have r := r.step (.ret (fa := []) rfl)
  have r := r.step (.ret (fa := []) rfl)
  exact ⟨_, r, rfl⟩

/-- Non-vacuity: an interleaving in which calls overlap. -/
example : ∃ a, AtomicMap.Run AtomicMap.init overlap a := by
  obtain ⟨s, h, _⟩ := overlap_run
  obtain ⟨a, h', _⟩ := C80_linearizable 2 (by decide) _ _ h
  exact ⟨a, h'⟩

/-- C80, a consequence everything above the tree relies on: however many goroutines try to create the item of a key at the
same time, at most one of them is told that it created it, as long as nobody deletes it. -/
theorem C80_one_creator (n : Nat) (hn : 2 ≤ n) (evs : List (Event Key V)) (s : BTreeConc.St Key V) (hr : BTreeConc.Run n BTreeConc.St.init evs s)
    (k : Key) (hd : ∀ ev ∈ evs, Event.deletes k ev = false) : evs.countP (Event.created k) ≤ 1 := by
  obtain ⟨_, a, h1, _⟩ := run_sim hn hr
  have := (once h1 hd).one
  omega

/-- Events of the example: two overlapping calls of `CreateOrFind 5`; both search before one of them creates. -/
def rivals : List (Event Key Nat) :=
  [.call 1 (.createOrFind (ki 5) 50), .call 2 (.createOrFind (ki 5) 51), .ret 2 (.createOrFind (ki 5) 51) (.createOrFind none),
   .ret 1 (.createOrFind (ki 5) 50) (.createOrFind (some 51))]

theorem rivals_run : ∃ s, BTreeConc.Run 2 BTreeConc.St.init rivals s := by
  have r := (BTreeConc.Run.nil (n := 2) (s := (BTreeConc.St.init : BTreeConc.St Key Nat))).step (.call 1 (.createOrFind (ki 5) 50))
  have r := r.step (.call 2 (.createOrFind (ki 5) 51))
  have r := r.step (.rlock (wa := []) rfl rfl)
  have r := r.step (.rlock (wa := []) rfl rfl)
  have r := r.step (.againEmpty (ra := []) rfl rfl)
  have r := r.step (.againEmpty (ra := []) rfl rfl)
  have r := r.step (.lock (wa := []) rfl rfl rfl)
  have r := r.step (.enterCreate rfl rfl ⟨rfl, rfl⟩)
  have r := r.step (.lock (wa := []) rfl rfl rfl)
  have r := r.step (.node rfl (.chain rfl rfl (.insert rfl rfl (by decide +kernel))))
  have r := r.step (.ret (fa := []) rfl)
  have r := r.step (.enterCreate rfl rfl ⟨rfl, rfl⟩)
  have r := r.step (.node rfl (.chain rfl rfl (.found (kv := (ki 5, 51)) rfl rfl)))
  have r := r.step (.ret (fa := []) rfl)
  exact ⟨_, r⟩

/-- Non-vacuity: in this history exactly one of the two calls is told that it created the item. -/
example : (∀ ev ∈ rivals, Event.deletes (ki 5) ev = false) ∧ rivals.countP (Event.created (ki 5)) = 1 := by
  refine ⟨?_, by decide +kernel⟩
  intro ev he
  simp [rivals] at he
  rcases he with rfl | rfl | rfl | rfl <;> rfl

/-! ## C81 – every call returns -/

/-- C81.  No deadlock: whatever the interleaving, as long as some call has not returned, some call under way can make a step
without a new call being made. -/
theorem C81_no_deadlock (n : Nat) (hn : 2 ≤ n) (evs : List (Event Key V)) (s : BTreeConc.St Key V) (hr : BTreeConc.Run n BTreeConc.St.init evs s)
    (hopen : ¬ AllReturned evs) : ∃ ev s', BTreeConc.Step n s ev s' ∧ ∀ id op, ev ≠ some (.call id op) := by
  refine Classical.byContradiction fun hno => hopen ?_
  exact stuck_returned hn hr (fun ev s' h => hno ⟨ev, s', h⟩)

/-- C81.  No livelock: from no reachable state can the calls go on for ever without new calls being made; so, with C81_no_deadlock,
in every schedule all calls return unless new calls are made again and again. -/
theorem C81_no_endless_run (n : Nat) (hn : 2 ≤ n) (evs : List (Event Key V)) (f : Nat → BTreeConc.St Key V) (ev : Nat → Option (Event Key V))
    (hr : BTreeConc.Run n BTreeConc.St.init evs (f 0)) (hs : ∀ i, BTreeConc.Step n (f i) (ev i) (f (i + 1))) :
    ∃ i id op, ev i = some (.call id op) := by
  refine Classical.byContradiction fun hno => ?_
  refine no_endless hn f (run_sim hn hr).1 (fun i => quiet_cases (ev := ev i) ⟨hs i, ?_⟩)
  exact fun id op h => hno ⟨i, id, op, h⟩

/-- C81.  From every reachable state the calls under way can all be completed. -/
theorem C81_can_finish (n : Nat) (hn : 2 ≤ n) (evs : List (Event Key V)) (s : BTreeConc.St Key V) (hr : BTreeConc.Run n BTreeConc.St.init evs s) :
    ∃ evs' s', BTreeConc.Run n s evs' s' ∧ (∀ ev ∈ evs', ∀ id op, ev ≠ .call id op) ∧ AllReturned (evs ++ evs') :=
  can_finish hn _ _ hr rfl rfl

/-- Non-vacuity: a reachable state in which two calls have not returned, one waiting for the other. -/
example : ∃ (evs : List (Event Key Nat)) (s : BTreeConc.St Key Nat), BTreeConc.Run 2 BTreeConc.St.init evs s ∧ ¬ AllReturned evs ∧
    s.hold ≠ none ∧ s.waiting ≠ [] := by
  have r := (BTreeConc.Run.nil (n := 2) (s := (BTreeConc.St.init : BTreeConc.St Key Nat))).step (.call 1 (.create (ki 5) 50))
  have r := r.step (.call 2 (.find (ki 5)))
  have r := r.step (.lock (wa := [(2, .find (ki 5), false)]) rfl rfl rfl)
  exact ⟨_, _, r, (fun h => absurd (h 1) (by decide)), (by simp), (by simp)⟩

end Willow.Props
