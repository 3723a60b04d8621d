import Verif.Proofs.LockerStop
import Verif.Props.Locker
/-
Property C93: the locker can be stopped.
-/
namespace Willow.Props
open Willow.Locker Willow.LockerSpec

/-! ### Example runs -/

/-- One client holds the lock, one waits; the service is told to stop. -/
def exStop : St := { exHeld with down := true }

theorem exStop_reach : Reach posT {} exStop := .step exHeld_reach (.shutdown _)

/-- The lock has seen the stop. -/
def exStop1 : St := exStop.upd 0 (ctxDone (exStop.objs 0))
/-- The waiting client got its 503. -/
def exStop2 : St := (exStop1.thr []).log .unavailable

theorem exStop_worked : Worked posT exStop exStop2 := by
  refine .step (.step (.refl _) ⟨⟨.ctx exStop 0 rfl rfl, rfl, fun h => ?_⟩, rfl⟩)
    ⟨⟨.obtainClosed exStop1 [] [] 0 9 rfl rfl, rfl, fun h => ?_⟩, rfl⟩
  · exact absurd (congrArg (fun s => (s.objs 0).phase) h) (by decide)
  · exact absurd (congrArg (fun s => s.threads) h) (by decide)

/-! ### C93 -/

/-- Once the service was told to stop, it does only a bounded number of things as long as no new request arrives, whatever the
schedule and whichever clients go away. -/
theorem C93_stops_working {acc : Int → Prop} {s : St} (hr : Reach acc {} s) (hd : s.down = true) :
    ∃ n, ∀ k, Path (Goes acc) s k → k ≤ n := ⟨mu s, fun _ h => goes_path (good_of_reach hr) hd h⟩

example : Path (Goes posT) exStop 2 := by
  refine .cons ⟨.ctx exStop 0 rfl rfl, rfl, fun h => ?_⟩ (.cons ⟨.obtainClosed exStop1 [] [] 0 9 rfl rfl, rfl, fun h => ?_⟩ (.nil exStop2))
  · exact absurd (congrArg (fun s => (s.objs 0).phase) h) (by decide)
  · exact absurd (congrArg (fun s => s.threads) h) (by decide)

/-- When it does nothing any more, it came to its end (all requests answered, all goroutines over), or it hangs in one of three
ways: there are no others. -/
theorem C93_ended_or_hangs {acc : Int → Prop} (hpos : ∀ t, acc t → 0 < t) {s : St} (hr : Reach acc {} s) (hd : s.down = true)
    (hb : ∀ s', ¬ Works acc s s') : AllEnded s ∨ Hangs s := blocked hpos hr hd hb

example : ∃ s', Worked posT exStop s' ∧ Reach posT {} s' ∧ s'.down = true ∧ ∀ s'', ¬ Works posT s' s'' := by
  obtain ⟨s', hw, hb⟩ := worked_end (acc := posT) (mu exStop) exStop (Nat.le_refl _) exStop_reach rfl
  obtain ⟨a, b, -⟩ := worked_facts exStop_reach rfl hw
  exact ⟨s', hw, a, b, hb⟩

/-- If, when the service is told to stop, there are only clients waiting for locks, held locks and timeouts, and no request
arrives and no client goes away any more, then it comes to its end, in every schedule: every request is answered, no goroutine
is left.  Missing for C93: heartbeats, releases and disconnects during the stop, and requests after it
(`C93_violated_timeout_blocks_stop`, `C93_violated_refused_lock`). -/
theorem C93_stop_completes_partial {acc : Int → Prop} (hpos : ∀ t, acc t → 0 < t) {s : St} (hr : Reach acc {} s)
    (hd : s.down = true) (hst : ∀ l, (s.objs l).phase ≠ .notRunning) (hpl : ∀ t ∈ s.threads, plain t = true) :
    (∃ s', Worked acc s s' ∧ AllEnded s') ∧
    ∀ s', Worked acc s s' → (∀ s'', ¬ Works acc s' s'') → AllEnded s' ∧ answers s' = asked s := by
  have key : ∀ s', Worked acc s s' → (∀ s'', ¬ Works acc s' s'') → AllEnded s' ∧ answers s' = asked s := fun s' hw hb => by
    obtain ⟨a, b, c, d, e⟩ := worked_facts hr hd hw
    rcases blocked hpos a b hb with h | h
    · refine ⟨h, ?_⟩
      rw [← c, asked, unanswered, h.1]; simp
    · exact absurd h (e ⟨hst, hpl⟩).no_hang
  obtain ⟨s', hw, hb⟩ := worked_end (mu s) s (Nat.le_refl _) hr hd
  exact ⟨⟨s', hw, (key s' hw hb).1⟩, key⟩

example : Reach posT {} exStop ∧ exStop.down = true ∧ (∀ l, (exStop.objs l).phase ≠ .notRunning) ∧
    (∀ t ∈ exStop.threads, plain t = true) ∧ Worked posT exStop exStop2 ∧ AllEnded exStop2 ∧ answers exStop2 = 2 ∧
    exStop2.tr = [.unavailable, .granted 0 7] := by
  have hph : ∀ l, l ≠ 0 → (exStop.objs l).phase = .absent := fun l h => by
    simp [exStop, exHeld, St.upd, St.thr, St.log, h]
  refine ⟨exStop_reach, rfl, fun l => ?_, by decide, exStop_worked, ⟨rfl, fun l => ?_⟩, rfl, rfl⟩
  · by_cases h : l = 0
    · subst h; decide
    · rw [hph l h]; simp
  · by_cases h : l = 0
    · subst h; exact .inr (.inl rfl)
    · refine .inl ?_
      have : (exStop2.objs l).phase = (exStop.objs l).phase := by simp [exStop2, exStop1, St.upd, St.thr, St.log, h]
      rw [this]; exact hph l h

/-- A lock asked for after the service was told to stop is saved without ever being started.  From then on no request working on
these key-values is ever answered, whatever happens: not the clients that ask for the same lock, not those that give up, not
heartbeats or releases. -/
theorem C93_violated_refused_lock {acc : Int → Prop} {s s' : St} {l : LockId} (hr : Reach acc {} s) (ht : s.tree = some l)
    (hp : (s.objs l).phase = .notRunning) (h : Reach acc s s') :
    unanswered s ≤ unanswered s' ∧ (unanswered s ≠ 0 → ¬ AllEnded s') := by
  have key : s'.tree = some l ∧ (s'.objs l).phase = .notRunning ∧ unanswered s ≤ unanswered s' := by
    induction h with
    | refl => exact ⟨ht, hp, Nat.le_refl _⟩
    | step h hs ih =>
      obtain ⟨a, b, c⟩ := refused_step ((good_of_reach hr).reach h) ih.1 ih.2.1 hs
      exact ⟨a, b, Nat.le_trans ih.2.2 c⟩
  refine ⟨key.2.2, fun h0 he => ?_⟩
  have := key.2.2
  rw [unanswered , unanswered, he.1] at this
  simp at this
  exact h0 (by rw [unanswered]; exact List.countP_eq_zero.mpr (by simpa using this))

/-- After the stop, a client asks for a lock and gets its 503; the next client that asks for it waits for ever. -/
def exRefused : St :=
  let s0 : St := { ({} : St) with down := true }
  let s1 := { (s0.upd 0 { phase := .notRunning }).log .unavailable with tree := some 0, next := 1 }
  (s1.upd 0 { s1.objs 0 with count := (s1.objs 0).count + 1 }).thr [.waiting 0 5]

theorem exRefused_reach : Reach posT {} exRefused :=
  .step (.step (.step .refl (.shutdown _)) (.obtainRefused _ rfl (by decide) rfl)) (.obtainFind _ 0 5 (by decide) rfl (by decide))

example : Reach posT {} exRefused ∧ exRefused.tree = some 0 ∧ (exRefused.objs 0).phase = .notRunning ∧ unanswered exRefused = 1 :=
  ⟨exRefused_reach, rfl, rfl, rfl⟩

/-- A client whose request was refused and who is gone by then hangs in the same way, with the tree locked. -/
example : ∃ s, Reach posT {} s ∧ s.tree = some 0 ∧ (s.objs 0).phase = .notRunning ∧ s.threads = [.leavingIn 0 0] ∧ unanswered s = 1 :=
  ⟨_, .step (.step (.step .refl (.shutdown _)) (.obtainRefusedLost _ rfl (by decide) rfl))
    (.leaveEnter _ [] [] 0 0 rfl (by decide) rfl), rfl, rfl, rfl, rfl⟩

/-- The time of a session runs out and, before the timeout is processed, the service is told to stop while a heartbeat, a release
or a disconnect is handed to the same lock: the lock waits for the timeout, the timeout for the request, the request for the
lock.  They do so for ever, whatever happens; the service never ends. -/
theorem C93_violated_timeout_blocks_stop {acc : Int → Prop} {s s' : St} {l : LockId} {t : Thread} (hr : Reach acc {} s)
    (hp : (s.objs l).phase = .ctxWait) (hm : t ∈ s.threads) (hi : insideLock l t = true ∨ insideLost l t = true)
    (h : Reach acc s s') : t ∈ s'.threads ∧ unanswered s ≤ unanswered s' ∧ ¬ AllEnded s' := by
  have key : (s'.objs l).phase = .ctxWait ∧ t ∈ s'.threads ∧ unanswered s ≤ unanswered s' := by
    induction h with
    | refl => exact ⟨hp, hm, Nat.le_refl _⟩
    | step h hs ih =>
      obtain ⟨a, b, c⟩ := timeout_step ((good_of_reach hr).reach h) ih.1 ih.2.1 hi hs
      exact ⟨a, b, Nat.le_trans ih.2.2 c⟩
  exact ⟨key.2.1, key.2.2, fun he => by have := key.2.1; rw [he.1] at this; simp at this⟩

/-- The session of the first client ran out; it heartbeats; the service is told to stop. -/
def exTimeoutStop : St :=
  let s0 := { exExpired.thr [.hbIn 0 7, .toWant 0, .waiting 0 9] with down := true }
  s0.upd 0 (ctxDone (s0.objs 0))

example : Reach posT {} exTimeoutStop ∧ (exTimeoutStop.objs 0).phase = .ctxWait ∧ .hbIn 0 7 ∈ exTimeoutStop.threads ∧
    insideLock 0 (.hbIn 0 7) = true ∧ unanswered exTimeoutStop = 2 :=
  ⟨.step (.step (.step exExpired_reach (.hbEnter _ 0 7 (by decide) rfl)) (.shutdown _)) (.ctx _ 0 rfl rfl),
   rfl, by decide, rfl, rfl⟩

/-- The third way is the stale heartbeat or release of C30: told to stop or not, the service hangs. -/
theorem C93_violated_stale_release : ∃ s, Reach posT {} s ∧ s.down = true ∧ Hangs s ∧
    ∀ s', Reach posT s s' → s'.threads = s.threads ∧ ¬ AllEnded s' := by
  obtain ⟨h1, -, -, -, h2⟩ := C30_violated_stale_release_blocks_for_ever
  have hs : Step posT exStuck { exStuck with down := true } := .shutdown _
  refine ⟨_, .step h1 hs, rfl, .unheld 0 rfl rfl ⟨.relIn 0 7, by decide, rfl⟩, fun s' h => ?_⟩
  have := h2 s' ((Reach.one hs).trans h)
  refine ⟨this.2.1, fun he => ?_⟩
  have h3 := this.2.1
  rw [he.1] at h3
  exact absurd h3.symm (by decide)

end Willow.Props
