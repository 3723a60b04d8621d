import Verif.Proofs.Heartbeater
/-
Properties C33, C34, C59: the heartbeater (internal/heartbeater/heartbeater.go).

`Heartbeater.Reach c n s`: `s` is reachable with the parameters `c` and `n` concurrent callers, for any interleaving of calls, ticks,
cancellation and clock steps.  `s.log` is the history, newest event first, each event with its time.
-/
namespace Willow.Props
open Heartbeater HeartbeaterSpec

/-- C33.  At most one of these happens: a Stop returns true, the timeout callback is called, the shutdown is processed. -/
theorem C33_ends_once (c : Config) (n : Nat) (s : Heartbeater.St) (h : Heartbeater.Reach c n s) :
    s.log.countP (fun e => e.1 = .stop true ∨ e.1 = .timeout ∨ e.1 = .shutdown) ≤ 1 := by
  have hI := (Heartbeater.reach_inv h).ended
  have : (fun e : Ev × Nat => decide (e.1 = .stop true ∨ e.1 = .timeout ∨ e.1 = .shutdown)) = (fun e => ends e.1) := by
    funext e; obtain ⟨e, t⟩ := e; cases e <;> simp [ends] <;> rename_i b <;> cases b <;> simp [ends]
  rw [this, hI]; split <;> omega

/-- C33.  After that nothing succeeds: every later Stop, Start and Heartbeat returns false and no callback is called. -/
theorem C33_nothing_after_end (c : Config) (n : Nat) (s : Heartbeater.St) (h : Heartbeater.Reach c n s)
    (newer older : List (Ev × Nat)) (e : Ev × Nat) (hl : s.log = newer ++ e :: older)
    (he : e.1 = .stop true ∨ e.1 = .timeout ∨ e.1 = .shutdown) :
    ∀ x ∈ newer, x.1 = .stop false ∨ x.1 = .start false ∨ x.1 = .beat false ∨ x.1 = .tick := by
  intro x hx
  have := (Heartbeater.reach_inv h).order newer e older hl (by rcases he with h | h | h <;> rw [h] <;> rfl) x hx
  obtain ⟨x, t⟩ := x
  cases x <;> simp_all [effective] <;> rename_i b <;> cases b <;> simp_all

/-- C33.  Once Execute has returned every blocked call can return false, and no call can return true. -/
theorem C33_blocked_calls_return (c : Config) (n : Nat) (s : Heartbeater.St) (h : Heartbeater.Reach c n s) (hd : s.phase = .done) :
    (∀ p ∈ s.callers, p ≠ .idle → ∃ s' e, Heartbeater.Step c s s' ∧ s'.log = (e, s.now) :: s.log ∧
      (p = .start → e = .start false) ∧ (p = .stop → e = .stop false) ∧ (p = .beat → e = .beat false)) ∧
    ∀ s', Heartbeater.Step c s s' → s'.phase = .done ∧
      (s'.log = s.log ∨ ∃ e, s'.log = (e, s.now) :: s.log ∧ (e = .start false ∨ e = .stop false ∨ e = .beat false)) := by
  refine ⟨?_, ?_⟩
  · intro p hp hne
    obtain ⟨a, b, e⟩ := List.append_of_mem hp
    cases p with
    | idle => exact absurd rfl hne
    | start => exact ⟨_, .start false, .startFail e hd, rfl, by simp⟩
    | stop => exact ⟨_, .stop false, .stopFail e hd, rfl, by simp⟩
    | beat => exact ⟨_, .beat false, .beatFail e hd, rfl, by simp⟩
  · intro s' hs
    cases hs <;> simp_all [Heartbeater.St.ev]

/-- C33.  A Stop call is never stuck: in every reachable state in which Execute was called and has not crashed, it can return at
once, or as soon as the running callback has returned. -/
theorem C33_stop_can_return (c : Config) (n : Nat) (s : Heartbeater.St) (_h : Heartbeater.Reach c n s) (hs : Caller.stop ∈ s.callers)
    (h0 : s.phase ≠ .notRun) (h1 : s.phase ≠ .crashed) :
    (∃ s', Heartbeater.Step c s s' ∧ ∃ ok, s'.log = (.stop ok, s.now) :: s.log) ∨
    ∃ s1 s2, Heartbeater.Step c s s1 ∧ Heartbeater.Step c s1 s2 ∧ s2.log = (.stop false, s.now) :: s.log := by
  obtain ⟨a, b, e⟩ := List.append_of_mem hs
  cases hp : s.phase with
  | notRun => exact absurd hp h0
  | crashed => exact absurd hp h1
  | waitStart => exact .inl ⟨_, .stopOk e (.inl hp), true, rfl⟩
  | running => exact .inl ⟨_, .stopOk e (.inr hp), true, rfl⟩
  | done => exact .inl ⟨_, .stopFail e hp, false, rfl⟩
  | inTimeout => exact .inr ⟨_, _, .ret (.inl hp), .stopFail (a := a) (b := b) e rfl, rfl⟩
  | inShutdown => exact .inr ⟨_, _, .ret (.inr hp), .stopFail (a := a) (b := b) e rfl, rfl⟩

/-- C34.  Start succeeds at most once and the timeout callback is called at most once, only after Start succeeded. -/
theorem C34_timeout_after_start (c : Config) (n : Nat) (s : Heartbeater.St) (h : Heartbeater.Reach c n s) :
    s.log.countP (fun e => e.1 = .start true) ≤ 1 ∧ s.log.countP (fun e => e.1 = .timeout) ≤ 1 ∧
    ∀ newer e older, s.log = newer ++ e :: older → e.1 = .timeout → ∃ x ∈ older, x.1 = .start true := by
  have hI := Heartbeater.reach_inv h
  refine ⟨?_, ?_, hI.after⟩
  · have := hI.starts
    have h2 : (fun e : Ev × Nat => decide (e.1 = .start true)) = (fun e => e.1 == .start true) := by funext e; rfl
    rw [h2]
    split at this <;> omega
  · refine Nat.le_trans (List.countP_mono_left ?_) (C33_ends_once c n s h)
    intro x _ hx; simp_all

/-- C57 (heartbeater part).  The heartbeater crashes only if its timeout is not positive, and then the first Start crashes it. -/
theorem C57_heartbeater_crash_iff (c : Config) (n : Nat) (s : Heartbeater.St) (h : Heartbeater.Reach c n s) :
    (s.phase = .crashed → c.timeout ≤ 0) ∧
    (c.timeout ≤ 0 → s.phase = .waitStart → Caller.start ∈ s.callers → ∃ s', Heartbeater.Step c s s' ∧ s'.phase = .crashed) := by
  refine ⟨(Heartbeater.reach_inv h).crash, ?_⟩
  intro ht hp hc
  obtain ⟨a, b, e⟩ := List.append_of_mem hc
  exact ⟨_, .startOk e hp, by simp [Heartbeater.St.ev, begin_, ht]⟩

/-- C59 (partial).  The timeout callback is called only after a tick that came at least the full timeout after Start and after every
heartbeat processed before that tick.  Missing: heartbeats processed between the tick and the callback, see the next theorem. -/
theorem C59_timeout_needs_full_period_partial (c : Config) (n : Nat) (s : Heartbeater.St) (h : Heartbeater.Reach c n s)
    (newer older : List (Ev × Nat)) (t : Nat) (hl : s.log = newer ++ (.timeout, t) :: older) :
    ∃ between t' before, older = between ++ (.tick, t') :: before ∧ t' ≤ t ∧
      (∃ e ∈ before, e.1 = .start true) ∧
      ∀ e ∈ before, (e.1 = .start true ∨ e.1 = .beat true) → e.2 + c.timeout.toNat ≤ t' := by
  have hI := Heartbeater.reach_inv h
  obtain ⟨between, t', before, e, hb⟩ := hI.fired newer t older hl
  exact ⟨between, t', before, e, logSorted h newer _ _ hl (.tick, t') (by rw [e]; simp), tick_after_start h (newer ++ (.timeout, t) :: between) t' before (by rw [hl, e]; simp),
    fun x hx hr => hb x hx (by rcases hr with hr | hr <;> rw [hr] <;> rfl)⟩

/-- C59 is false of the code: a heartbeat that is processed (Heartbeat returned true) does not postpone the timeout if the tick
already waits in the ticker's channel – `Reset` does not drain it (Go 1.22) – and the timeout callback is called at the same time. -/
theorem C59_violated_heartbeat_then_timeout : ∃ s : Heartbeater.St, Heartbeater.Reach ⟨5, true⟩ 1 s ∧
    ∃ rest, s.log = (.timeout, 5) :: (.beat true, 5) :: rest := by
  have r0 := Heartbeater.Reach.init (c := ⟨5, true⟩) (n := 1)
  have r1 := r0.step (.execute rfl)
  have r2 := r1.step (.callStart (a := []) (b := []) rfl rfl)
  have r3 := r2.step (.startOk (a := []) (b := []) rfl rfl)
  have r4 := ((((r3.step .clock).step .clock).step .clock).step .clock).step .clock
  have r5 := r4.step (.tick rfl (by decide))
  have r6 := r5.step (.callBeat (a := []) (b := []) rfl)
  have r7 := r6.step (.beatOk (a := []) (b := []) rfl rfl)
  have r8 := r7.step (.timeout rfl rfl)
  exact ⟨_, r8, _, rfl⟩

/-- The hypotheses are met: a stop that wins while a heartbeat call is blocked, and one that loses against the timeout. -/
example : ∃ s : Heartbeater.St, Heartbeater.Reach ⟨5, true⟩ 2 s ∧ s.phase = .done ∧ .beat ∈ s.callers ∧
    s.log = [(.stop true, 0), (.start true, 0)] := by
  have r0 := Heartbeater.Reach.init (c := ⟨5, true⟩) (n := 2)
  have r1 := r0.step (.execute rfl)
  have r2 := r1.step (.callStart (a := []) (b := [.idle]) rfl rfl)
  have r3 := r2.step (.startOk (a := []) (b := [.idle]) rfl rfl)
  have r4 := r3.step (.callBeat (a := [.idle]) (b := []) rfl)
  have r5 := r4.step (.callStop (a := []) (b := [.beat]) rfl)
  have r6 := r5.step (.stopOk (a := []) (b := [.beat]) rfl (.inr rfl))
  exact ⟨_, r6, rfl, List.mem_cons_of_mem _ (List.mem_cons_self), rfl⟩
example : ∃ s : Heartbeater.St, Heartbeater.Reach ⟨1, false⟩ 2 s ∧
    s.log = [(.stop false, 1), (.timeout, 1), (.tick, 1), (.start true, 0)] := by
  have r0 := Heartbeater.Reach.init (c := ⟨1, false⟩) (n := 2)
  have r1 := r0.step (.execute rfl)
  have r2 := r1.step (.callStart (a := []) (b := [.idle]) rfl rfl)
  have r3 := r2.step (.startOk (a := []) (b := [.idle]) rfl rfl)
  have r4 := (r3.step .clock).step (.tick rfl (by decide))
  have r5 := r4.step (.callStop (a := []) (b := [.idle]) rfl)
  have r6 := r5.step (.timeout rfl rfl)
  have r7 := r6.step (.ret (.inl rfl))
  have r8 := r7.step (.stopFail (a := []) (b := [.idle]) rfl rfl)
  exact ⟨_, r8, rfl⟩

end Willow.Props
