/-
Timed model of one lock of the Locker service and the lock objects of its clients
(pkg/clients/locker_client/lock.go, locker_client.go against internal/locker/lock_manager/exclusive_lock.go).

Every claim of the lock makes a new session; session number `x` is the `x`-th claim, and `cli x` is the lock object of the client
that made it.  Time is a natural number (nanoseconds); every action takes no time and a clock step can come at any moment, so every
delay of the network, of the server and of the client's goroutine is allowed.  The tickers are those of Go 1.22 (go.mod): a tick is
put in a channel of capacity one, and `Reset` sets the next time without draining the channel.

Simplifications: the server is not shut down; a lock that was removed and created again is the same lock (its LockID is new, which
is why a heartbeat of an old session can be answered 404 at any time); requests do not overtake each other within one client except
abandoned ones.
-/
namespace Willow.Lease

/-- Status codes of the answer to a heartbeat as the client tells them apart (lock.go:129-154): 200; 409 or 400; anything else
(404 of exclusive_locker.go:182, 503 of a shutdown). -/
inductive Code
  | ok
  | refused
  | other
deriving DecidableEq, Repr

/-- The heartbeat request of the client's loop (lock.go:120): none, on its way to the server since `t`, answered by the server but not
yet received. -/
inductive Call
  | idle
  | sent (t : Nat)
  | answered (c : Code) (t : Nat)
deriving DecidableEq, Repr

/-- The lock object of a client. -/
inductive Phase
  /-- the server granted the lock, ObtainLock has not returned (locker_client.go:134) -/
  | pending
  /-- ObtainLock returned the lock and Done is open -/
  | holding
  /-- Done is closed (lock.go:75, or ObtainLock failed and no lock was returned) -/
  | done
  /-- NewTicker panicked (lock.go:82): its period must be positive -/
  | crashed
deriving DecidableEq, Repr

/-- lock.go:80-83: the state of the loop: the timeout, the next heartbeat tick, the next tick of timeoutTicker, whether
timeoutTicker.C holds an old tick, the running heartbeat request, and the requests that failed for the client but may still reach
the server. `granted` is the time of the claim on the server; `released` records that Done was closed by Release, or that
ObtainLock failed. -/
structure Cli where
  phase : Phase
  timeout : Nat
  granted : Nat
  beat : Nat
  dead : Nat
  stale : Bool
  call : Call
  lost : Nat
  released : Bool
deriving DecidableEq, Repr

/-- lock.go:81-82: the period of the heartbeats. -/
def period (timeout : Nat) : Nat := (timeout - timeout / 10) / 3

/-- The whole state: the clock, the session that holds the lock on the server, the next tick of the server's ticker and whether its
channel holds an old tick (exclusive_lock.go:136), the number of sessions so far, and their lock objects. -/
structure St where
  now : Nat
  owner : Option Nat
  deadline : Nat
  stale : Bool
  next : Nat
  cli : Nat → Cli

/-- A lock object that does not exist yet. -/
def noCli : Cli :=
  { phase := .done, timeout := 0, granted := 0, beat := 0, dead := 0, stale := false, call := .idle, lost := 0, released := false }

/-- exclusive_lock.go:64-95: nobody holds the lock. -/
def init : St := { now := 0, owner := none, deadline := 0, stale := false, next := 0, cli := fun _ => noCli }

/-- Replace one lock object. -/
def St.set (s : St) (x : Nat) (c : Cli) : St := { s with cli := fun y => if y = x then c else s.cli y }

/-- exclusive_lock.go:131-136, 269-288: a waiting client claims the lock with a timeout. -/
def St.claim (s : St) (timeout : Nat) : St :=
  { s with
    owner := some s.next
    deadline := s.now + timeout
    stale := false
    next := s.next + 1
    cli := fun y => if y = s.next then
      { phase := .pending, timeout := timeout, granted := s.now, beat := 0, dead := 0, stale := false, call := .idle, lost := 0, released := false }
      else s.cli y }

/-- exclusive_lock.go:166-180 for a heartbeat of session `x` when it holds the lock: `ticker.Reset`; a tick that has already come
stays in the channel. -/
def St.renew (s : St) (x : Nat) : St :=
  { s with deadline := s.now + (s.cli x).timeout, stale := s.stale || decide (s.deadline ≤ s.now) }

/-- exclusive_lock.go:166-180 and exclusive_locker.go:178-200: what the server does with a heartbeat of session `x`. -/
def St.beat (s : St) (x : Nat) : St := if s.owner = some x then s.renew x else s

/-- exclusive_lock.go:178-183, exclusive_locker.go:182: the codes the server can answer with: 200 for the session that holds the
lock; otherwise 409 if the lock still has clients, 404 if it was removed. -/
def answers (s : St) (x : Nat) (c : Code) : Prop := if s.owner = some x then c = .ok else c = .refused ∨ c = .other

/-- lock.go:80-83: the loop starts when the answer to the claim arrives. -/
def Cli.start (c : Cli) (now : Nat) : Cli :=
  if period c.timeout = 0 then { c with phase := .crashed }
  else { c with phase := .holding, beat := now + period c.timeout, dead := now + c.timeout }

/-- lock.go:93-120: the heartbeat tick: the request is sent.  The ticker drops the ticks that come while the loop is busy, except
one; the next tick is the first one of its period after now. -/
def Cli.send (c : Cli) (now : Nat) : Cli :=
  { c with call := .sent now, beat := c.beat + period c.timeout * ((now - c.beat) / period c.timeout + 1) }

/-- lock.go:120-128: the request failed: `continue`.  The server may still get it. -/
def Cli.fail (c : Cli) : Cli := { c with call := .idle, lost := c.lost + 1 }

/-- lock.go:129-155: the answer arrives. -/
def Cli.receive (c : Cli) (code : Code) (now : Nat) : Cli :=
  match code with
  | .ok => { c with call := .idle, dead := now + c.timeout, stale := c.stale || decide (c.dead ≤ now) }
  | .refused => { c with call := .idle, phase := .done }
  | .other => { c with call := .idle }

/-- One atomic action. -/
inductive Step : St → St → Prop
  /-- time passes -/
  | wait (s : St) (d : Nat) : Step s { s with now := s.now + d }
  /-- exclusive_lock.go:131-136: only when nobody holds the lock; a timeout that is not positive panics (C32) -/
  | claim (s : St) (timeout : Nat) (h : s.owner = none) (hp : 0 < timeout) : Step s (s.claim timeout)
  /-- exclusive_lock.go:217-246: the server's ticker fires -/
  | expire (s : St) (x : Nat) (h : s.owner = some x) (ht : s.stale = true ∨ s.deadline ≤ s.now) : Step s { s with owner := none }
  /-- locker_client.go:134-165: the answer to the claim reaches the client -/
  | granted (s : St) (x : Nat) (h : (s.cli x).phase = .pending) : Step s (s.set x ((s.cli x).start s.now))
  /-- locker_client.go:119-131: it does not, ObtainLock fails -/
  | ungranted (s : St) (x : Nat) (h : (s.cli x).phase = .pending) : Step s (s.set x { s.cli x with phase := .done, released := true })
  /-- lock.go:93-120 -/
  | send (s : St) (x : Nat) (h : (s.cli x).phase = .holding) (hi : (s.cli x).call = .idle) (hb : (s.cli x).beat ≤ s.now) :
      Step s (s.set x ((s.cli x).send s.now))
  /-- exclusive_lock.go:166-180: the server handles the heartbeat -/
  | handle (s : St) (x t : Nat) (c : Code) (hc : (s.cli x).call = .sent t) (ha : answers s x c) :
      Step s ((s.beat x).set x { s.cli x with call := .answered c t })
  /-- the same, but the client has given the request up -/
  | handleLost (s : St) (x : Nat) (hl : 0 < (s.cli x).lost) :
      Step s ((s.beat x).set x { s.cli x with lost := (s.cli x).lost - 1 })
  /-- lock.go:121-128 -/
  | fail (s : St) (x : Nat) (h : (s.cli x).phase = .holding) (hc : (s.cli x).call ≠ .idle) : Step s (s.set x (s.cli x).fail)
  /-- lock.go:129-155 -/
  | receive (s : St) (x t : Nat) (c : Code) (h : (s.cli x).phase = .holding) (hc : (s.cli x).call = .answered c t) :
      Step s (s.set x ((s.cli x).receive c s.now))
  /-- lock.go:90-92: timeoutTicker fires -/
  | timeout (s : St) (x : Nat) (h : (s.cli x).phase = .holding) (hi : (s.cli x).call = .idle)
      (ht : (s.cli x).stale = true ∨ (s.cli x).dead ≤ s.now) : Step s (s.set x { s.cli x with phase := .done })
  /-- lock.go:174-181: Release closes Done before it sends the request -/
  | release (s : St) (x : Nat) (h : (s.cli x).phase = .holding) : Step s (s.set x { s.cli x with phase := .done, released := true })
  /-- exclusive_lock.go:185-212: the server handles the release request of a client whose Done is closed -/
  | released (s : St) (x : Nat) (h : s.owner = some x) (hd : (s.cli x).phase = .done) : Step s { s with owner := none }

/-- States that can be reached with every state on the way satisfying `P`. -/
inductive ReachWith (P : St → Prop) : St → Prop
  | init : ReachWith P init
  | step {s s' : St} : ReachWith P s → Step s s' → P s' → ReachWith P s'

/-- States that can be reached. -/
def Reach : St → Prop := ReachWith (fun _ => True)

/-- Bounds on the delays of one client: `D` bounds the time from the claim to the return of ObtainLock, `R` the time a heartbeat
request takes to return, `E` how long after the tick of timeoutTicker the client's goroutine takes to look at it when it is not in a
request. -/
def CliPrompt (D R E now : Nat) (c : Cli) : Prop :=
  match c.phase, c.call with
  | .pending, _ => now ≤ c.granted + D
  | .holding, .idle => now ≤ c.dead + E
  | .holding, .sent t => now ≤ t + R
  | .holding, .answered _ t => now ≤ t + R
  | _, _ => True

/-- The delays of all clients are bounded. -/
def Prompt (D R E : Nat) (s : St) : Prop := ∀ x, x < s.next → CliPrompt D R E s.now (s.cli x)

/-- Bounded delays, and the server looks at the tick of its ticker before the next heartbeat, so that no old tick stays in the
channel. -/
def Timely (D R E : Nat) (s : St) : Prop := Prompt D R E s ∧ s.stale = false

/-- The heartbeats of one client get through: as `CliPrompt`, with `E` bounding how long after a heartbeat tick the client's goroutine
takes to send the request, and no request fails. -/
def CliFlowing (D R E now : Nat) (c : Cli) : Prop :=
  c.lost = 0 ∧
  match c.phase, c.call with
  | .pending, _ => now ≤ c.granted + D
  | .holding, .idle => now ≤ c.beat + E
  | .holding, .sent t => now ≤ t + R
  | .holding, .answered _ t => now ≤ t + R
  | _, _ => True

/-- The heartbeats of all clients get through. -/
def Flowing (D R E : Nat) (s : St) : Prop := ∀ x, x < s.next → CliFlowing D R E s.now (s.cli x)

end Willow.Lease
