import Verif.Proofs.BTreeWalkLive
import Verif.Props.BTreeWalk
/-
Property C101: calls and range searches of the ordered tree that are under way at the same time never wait for each other for ever,
and all of them end.

A step that neither makes a call nor begins a search (`Quiet`) is a step of the calls and searches that are under way.
-/
namespace Willow.Props
open BTree Spec KeyOps LawfulKey BTreeConc BTreeWalk

variable {V : Type}

/-- The step makes no call, and the number of searches begun so far stays the same. -/
def Quiet (w : BTreeWalk.W Key V) (ev : Option (Event Key V)) (w' : BTreeWalk.W Key V) : Prop :=
  (∀ id op, ev ≠ some (.call id op)) ∧ w'.walks.length = w.walks.length

/-- The step lets another call have the tree's lock shared although a call waits for that lock to write.  Go's `sync.RWMutex` does not
do this: who waits to write comes before those who ask to read later. -/
def OvertakesWriter (w w' : BTreeWalk.W Key V) : Prop :=
  (∃ x ∈ w.st.waiting, x.2.2 = true) ∧ w.st.readers.length < w'.st.readers.length

/-- C101.  No deadlock, even though who waits for the tree's lock to write keeps out those who come to read: whatever the interleaving,
as long as some call has not returned or some search is not over, a call or a search that is under way can make a step, and one that
overtakes nobody who waits to write. -/
theorem C101_no_deadlock_writers_first (n : Nat) (hn : 2 ≤ n) (w : BTreeWalk.W Key V) (evs : List (Event Key V))
    (hr : WRun n (fun _ => True) W.init evs w) (hopen : ¬ AllReturned evs ∨ ∃ y ∈ w.walks, ¬ w.over y.id) :
    ∃ ev w', WStep n w ev w' ∧ Quiet w ev w' ∧ ¬ OvertakesWriter w w' := by
  refine Classical.byContradiction fun hno => ?_
  obtain ⟨h1, h2⟩ := polite_possible hn hr (fun ev w' h hp =>
    hno ⟨ev, w', h.1, h.2, fun ho => Nat.lt_irrefl _ (Nat.lt_of_lt_of_le ho.2 (hp ho.1))⟩)
  rcases hopen with h | ⟨y, _, h⟩
  · exact h h1
  · exact h (h2 y.id)

/-- The node is in the subtree. -/
inductive NodeIn (t : CNode Key V) : CNode Key V → Prop where
  | here : NodeIn t t
  | child {u c : CNode Key V} (h : NodeIn t u) (hc : c ∈ u.children) : NodeIn t c

theorem nodeIn_excl {t u : CNode Key V} (h : NodeIn t u) (he : Excl t) : Excl u := by
  induction h with
  | here => exact he
  | child _ hc ih => exact excl_children ih _ hc

/-- C101.  No node is locked shared and exclusively at once.  A call or search asks for the lock of a node below the root while it has
the lock of the node above in the same way, so nobody waits for a node to write while another waits for it to read. -/
theorem C101_shared_or_exclusive (n : Nat) (hn : 2 ≤ n) (w : BTreeWalk.W Key V) (evs : List (Event Key V))
    (hr : WRun n (fun _ => True) W.init evs w) (r u : CNode Key V) (hroot : w.st.root = some r) (hu : NodeIn r u) :
    u.hold = none ∨ u.readers = [] := by
  have he := (wrun_sim hn hr).1.excl
  rw [hroot] at he
  cases hh : u.hold with
  | none => exact .inl rfl
  | some h => exact .inr (excl_readers (nodeIn_excl hu he) hh)

/-- C101.  No deadlock: whatever the interleaving, as long as some call has not returned or some search is not over, a call or a search
that is under way can make a step. -/
theorem C101_no_deadlock (n : Nat) (hn : 2 ≤ n) (w : BTreeWalk.W Key V) (evs : List (Event Key V))
    (hr : WRun n (fun _ => True) W.init evs w) (hopen : ¬ AllReturned evs ∨ ∃ y ∈ w.walks, ¬ w.over y.id) :
    ∃ ev w', WStep n w ev w' ∧ Quiet w ev w' := by
  obtain ⟨ev, w', h1, h2, _⟩ := C101_no_deadlock_writers_first n hn w evs hr hopen
  exact ⟨ev, w', h1, h2⟩

/-- C101.  No livelock: the calls and searches under way cannot go on for ever without a new call being made or a new search begun; so,
with C101_no_deadlock, in every schedule all calls return and all searches end unless new ones are begun again and again. -/
theorem C101_no_endless_run (n : Nat) (hn : 2 ≤ n) (evs : List (Event Key V)) (f : Nat → BTreeWalk.W Key V) (ev : Nat → Option (Event Key V))
    (hr : WRun n (fun _ => True) W.init evs (f 0)) (hs : ∀ i, WStep n (f i) (ev i) (f (i + 1))) :
    ∃ i, ¬ Quiet (f i) (ev i) (f (i + 1)) := by
  refine Classical.byContradiction fun hno => ?_
  exact no_endlessW hn f ev (wrun_sim hn hr).1 (fun i => ⟨hs i, Classical.byContradiction fun h => hno ⟨i, h⟩⟩)

theorem wrun_append {n : Nat} {w0 w w' : BTreeWalk.W Key V} {e e' : List (Event Key V)} (h : WRun n (fun _ => True) w0 e w)
    (h' : WRun n (fun _ => True) w e' w') : WRun n (fun _ => True) w0 (e ++ e') w' := by
  induction h' with
  | nil _ => simpa using h
  | step _ hs _ ih => rw [← List.append_assoc]; exact ih.step hs trivial

/-- C101.  From every reachable state the calls and searches under way can all be completed. -/
theorem C101_can_finish (n : Nat) (hn : 2 ≤ n) (w : BTreeWalk.W Key V) (evs : List (Event Key V))
    (hr : WRun n (fun _ => True) W.init evs w) :
    ∃ evs' w', WRun n (fun _ => True) w evs' w' ∧ (∀ ev ∈ evs', ∀ id op, ev ≠ .call id op) ∧ w'.walks.length = w.walks.length ∧
      AllReturned (evs ++ evs') ∧ ∀ y ∈ w'.walks, w'.over y.id := by
  -- if not, the state has a step to another such state
  refine Classical.byContradiction fun hno => ?_
  let G := { v : BTreeWalk.W Key V // ∃ e', WRun n (fun _ => True) w e' v ∧ (∀ ev ∈ e', ∀ id op, ev ≠ .call id op) ∧
    v.walks.length = w.walks.length }
  have next : ∀ p : G, ∃ q : G × Option (Event Key V), WStep n p.1 q.2 q.1.1 ∧ Quiet p.1 q.2 q.1.1 := by
    rintro ⟨v, e', h1, h2, h3⟩
    obtain ⟨ev, v', hs, hq⟩ := C101_no_deadlock n hn v (evs ++ e') (wrun_append hr h1) (by
      refine Classical.byContradiction fun hc => ?_
      rw [not_or] at hc
      exact hno ⟨e', v, h1, h2, h3, Classical.byContradiction hc.1, fun y hy => Classical.byContradiction fun h => hc.2 ⟨y, hy, h⟩⟩)
    refine ⟨⟨⟨v', e' ++ ev.toList, h1.step hs trivial, ?_, hq.2.trans h3⟩, ev⟩, hs, hq⟩
    intro x hx id op
    rcases List.mem_append.1 hx with hx | hx
    · exact h2 x hx id op
    · have : ev = some x := by simpa using hx
      subst this
      exact fun h => hq.1 id op (by rw [h])
  let g : G → G × Option (Event Key V) := fun p => Classical.choose (next p)
  have hg : ∀ p, WStep n p.1 (g p).2 (g p).1.1 ∧ Quiet p.1 (g p).2 (g p).1.1 := fun p => Classical.choose_spec (next p)
  let s : Nat → G := fun i => Nat.rec ⟨w, [], .nil trivial, by simp, rfl⟩ (fun _ p => (g p).1) i
  obtain ⟨i, hi⟩ := C101_no_endless_run n hn evs (fun i => (s i).1) (fun i => (g (s i)).2) hr (fun i => (hg (s i)).1)
  exact hi (hg (s i)).2

/-- The steps until the search 9 for keys less than 7 holds the root and waits for the left leaf, which `Create 2` has locked. -/
theorem waiting_run : ∃ evs, WRun 2 (fun _ => True) (W.init : BTreeWalk.W Key Nat) evs
    ⟨⟨[], none, [], some (.mk none [exLock] [(ki 5, 50)] [.mk (some ⟨4, .create (ki 2) 20, false, .down⟩) [] [(ki 3, 30)] [],
      .mk none [] [(ki 7, 70)] []]), []⟩, [⟨9, .lessThan (ki 7) 0, []⟩]⟩ := by
  obtain ⟨evs, r⟩ := three_items
  have r := r.step (.other (.call 4 (.create (ki 2) 20))) trivial
  have r := r.step (.other (.lock (wa := []) rfl rfl rfl)) trivial
  have r := r.step (.other (.enterCreate rfl rfl ⟨rfl, rfl⟩)) trivial
  have r := r.step (.other (.node rfl (.chain rfl rfl (.descendRelease (ca := []) rfl rfl ⟨rfl, rfl⟩ rfl)))) trivial
  have r := r.step (.begin 9 (.lessThan (ki 7) 0) (.create (ki 0) 0) rfl rfl rfl rfl (by simp)) trivial
  exact ⟨_, r⟩

/-- Non-vacuity: there the search is not over, and something can move. -/
example : ∃ (w : BTreeWalk.W Key Nat) (ev : Option (Event Key Nat)) (w' : BTreeWalk.W Key Nat),
    (∃ y ∈ w.walks, ¬ w.over y.id) ∧ WStep 2 w ev w' ∧ Quiet w ev w' := by
  obtain ⟨evs, r⟩ := waiting_run
  have ho : ∃ y ∈ [(⟨9, .lessThan (ki 7) 0, []⟩ : BTreeWalk.Walk Key Nat)], ¬ W.over ⟨⟨[], none, [], some (.mk none [exLock] [(ki 5, 50)]
      [.mk (some ⟨4, .create (ki 2) 20, false, .down⟩) [] [(ki 3, 30)] [], .mk none [] [(ki 7, 70)] []]), []⟩, [⟨9, .lessThan (ki 7) 0, []⟩]⟩ y.id :=
    ⟨_, .head _, fun h => h _ rfl (.inl ⟨exLock, .head _, rfl, rfl⟩)⟩
  obtain ⟨ev, w', h1, h2⟩ := C101_no_deadlock 2 (by decide) _ _ r (.inr ho)
  exact ⟨_, ev, w', ho, h1, h2⟩

/-- Non-vacuity: a search is under way in the tree, `Find 5` and `Create 9` wait for the tree's lock; if `Find 5` got it, it would overtake
`Create 9`, and there is another step. -/
example : ∃ (w w' w'' : BTreeWalk.W Key Nat), WStep 2 w none w' ∧ OvertakesWriter w w' ∧ (∃ y ∈ w.walks, ¬ w.over y.id) ∧
    (∃ ev, WStep 2 w ev w'' ∧ Quiet w ev w'') ∧ ¬ OvertakesWriter w w'' := by
  obtain ⟨evs, r⟩ := waiting_run
  have r := r.step (.other (.call 10 (.create (ki 9) 90))) trivial
  have r := r.step (.other (.call 11 (.find (ki 5)))) trivial
  have ho : ∃ y ∈ [(⟨9, .lessThan (ki 7) 0, []⟩ : BTreeWalk.Walk Key Nat)], ¬ W.over ⟨⟨[(11, .find (ki 5), false), (10, .create (ki 9) 90, true)], none, [],
      some (.mk none [exLock] [(ki 5, 50)]
      [.mk (some ⟨4, .create (ki 2) 20, false, .down⟩) [] [(ki 3, 30)] [], .mk none [] [(ki 7, 70)] []]), []⟩, [⟨9, .lessThan (ki 7) 0, []⟩]⟩ y.id :=
    ⟨_, .head _, fun h => h _ rfl (.inl ⟨exLock, .head _, rfl, rfl⟩)⟩
  obtain ⟨ev, w', h1, h2, h3⟩ := C101_no_deadlock_writers_first 2 (by decide) _ _ r (.inr ho)
  exact ⟨_, _, w', .other (.rlock (wa := []) rfl rfl), ⟨⟨_, .tail _ (.head _), rfl⟩, by decide⟩, ho, ⟨ev, h1, h2⟩, h3⟩

/-- Non-vacuity: there the root is locked shared, and its first child exclusively. -/
example : ∃ (w : BTreeWalk.W Key Nat) (evs : List (Event Key Nat)) (r u : CNode Key Nat), WRun 2 (fun _ => True) W.init evs w ∧
    w.st.root = some r ∧ r.readers ≠ [] ∧ NodeIn r u ∧ u.hold ≠ none ∧ u.readers = [] := by
  obtain ⟨evs, h⟩ := waiting_run
  exact ⟨_, evs, _, _, h, rfl, by simp, .child .here (.head _), by simp, rfl⟩

end Willow.Props
