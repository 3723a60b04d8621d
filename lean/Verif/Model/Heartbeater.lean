/-
Model of internal/heartbeater/heartbeater.go as a transition system over any number of callers of Start, Stop and Heartbeat.

One step for each channel rendezvous or atomic action; a call returns at its rendezvous.  Time is a natural number that a clock step
advances at any moment; the ticker is the one of Go 1.22 (go.mod): it puts a tick in a channel of capacity one when its time has
come, and `Reset` sets the next time without draining the channel.
-/
namespace Willow.Heartbeater

/-- The parameters of `New` (heartbeater.go:57-74): the timeout and whether onShutdown is given. -/
structure Config where
  timeout : Int
  hasShutdown : Bool

/-- Where `Execute` is. -/
inductive Phase
  /-- Execute was not called yet -/
  | notRun
  /-- the first select (heartbeater.go:81-85) -/
  | waitStart
  /-- the loop (90-112) -/
  | running
  /-- inside onTimeout (104) -/
  | inTimeout
  /-- inside onShutdown (95) -/
  | inShutdown
  /-- Execute returned, doneChan is closed (78) -/
  | done
  /-- NewTicker panicked (87): its period must be positive -/
  | crashed
deriving DecidableEq, Repr

/-- Where a caller is. -/
inductive Caller
  | idle
  /-- in the select of Start (137-142) -/
  | start
  /-- in the select of Stop (124-129) -/
  | stop
  /-- in the select of Heartbeat (153-158) -/
  | beat
deriving DecidableEq, Repr

/-- What happens, with its time. -/
inductive Ev
  | start (ok : Bool)
  | stop (ok : Bool)
  | beat (ok : Bool)
  /-- the ticker put a tick in its channel -/
  | tick
  /-- the timeout callback is called (104) -/
  | timeout
  /-- the context was done; onShutdown is called if there is one (92-98) -/
  | shutdown
deriving DecidableEq, Repr

/-- heartbeater.go:23-45, the callers, and the history (newest first). -/
structure St where
  phase : Phase := .notRun
  started : Bool := false
  ctxDone : Bool := false
  now : Nat := 0
  next : Nat := 0
  buf : Bool := false
  lastHeartbeat : Nat := 0
  callers : List Caller
  log : List (Ev × Nat) := []

/-- Record an event. -/
def St.ev (s : St) (e : Ev) : St := { s with log := (e, s.now) :: s.log }

/-- heartbeater.go:81-88: Start was received; NewTicker and setLastHeartbeat. -/
def begin_ (c : Config) (s : St) : St :=
  if c.timeout ≤ 0 then { s with phase := .crashed }
  else { s with phase := .running, next := s.now + c.timeout.toNat, buf := false, lastHeartbeat := s.now }

/-- Steps. -/
inductive Step (c : Config) : St → St → Prop
  /-- Execute is called (77-81), once -/
  | execute {s} : s.phase = .notRun → Step c s { s with phase := .waitStart }
  /-- the context is cancelled -/
  | cancel {s} : Step c s { s with ctxDone := true }
  /-- time passes -/
  | clock {s} : Step c s { s with now := s.now + 1 }
  /-- the ticker fires; it is never stopped -/
  | tick {s} : s.phase = .running → s.next ≤ s.now → Step c s (St.ev { s with buf := true, next := s.next + c.timeout.toNat } .tick)
  /-- 135-137: the first Start -/
  | callStart {s a b} : s.callers = a ++ .idle :: b → s.started = false → Step c s { s with started := true, callers := a ++ .start :: b }
  /-- 136, 145: any other Start -/
  | startAgain {s} : .idle ∈ s.callers → s.started = true → Step c s (s.ev (.start false))
  /-- 81-82 with 138-139 -/
  | startOk {s a b} : s.callers = a ++ .start :: b → s.phase = .waitStart →
      Step c s (St.ev (begin_ c { s with callers := a ++ .idle :: b }) (.start true))
  /-- 140-145 -/
  | startFail {s a b} : s.callers = a ++ .start :: b → s.phase = .done → Step c s (St.ev { s with callers := a ++ .idle :: b } (.start false))
  /-- 123 -/
  | callStop {s a b} : s.callers = a ++ .idle :: b → Step c s { s with callers := a ++ .stop :: b }
  /-- 83-84 or 99-101 with 125-126 -/
  | stopOk {s a b} : s.callers = a ++ .stop :: b → (s.phase = .waitStart ∨ s.phase = .running) →
      Step c s (St.ev { s with callers := a ++ .idle :: b, phase := .done } (.stop true))
  /-- 127-131 -/
  | stopFail {s a b} : s.callers = a ++ .stop :: b → s.phase = .done → Step c s (St.ev { s with callers := a ++ .idle :: b } (.stop false))
  /-- 152 -/
  | callBeat {s a b} : s.callers = a ++ .idle :: b → Step c s { s with callers := a ++ .beat :: b }
  /-- 107-110 with 154-155 -/
  | beatOk {s a b} : s.callers = a ++ .beat :: b → s.phase = .running →
      Step c s (St.ev { s with callers := a ++ .idle :: b, lastHeartbeat := s.now, next := s.now + c.timeout.toNat } (.beat true))
  /-- 156-160 -/
  | beatFail {s a b} : s.callers = a ++ .beat :: b → s.phase = .done → Step c s (St.ev { s with callers := a ++ .idle :: b } (.beat false))
  /-- 92-98 -/
  | shutdown {s} : s.phase = .running → s.ctxDone = true →
      Step c s (St.ev { s with phase := if c.hasShutdown then .inShutdown else .done } .shutdown)
  /-- 102-104 -/
  | timeout {s} : s.phase = .running → s.buf = true → Step c s (St.ev { s with phase := .inTimeout, buf := false } .timeout)
  /-- 104-106, 95-98: the callback returned -/
  | ret {s} : (s.phase = .inTimeout ∨ s.phase = .inShutdown) → Step c s { s with phase := .done }

/-- `New` with `n` callers. -/
def init (n : Nat) : St := { callers := List.replicate n .idle }

/-- Reachable states. -/
inductive Reach (c : Config) (n : Nat) : St → Prop
  | init : Reach c n (init n)
  | step {s s'} : Reach c n s → Step c s s' → Reach c n s'

end Willow.Heartbeater
