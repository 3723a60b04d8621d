import Verif.Spec.Locker
/-
Specification of stopping the locker: what it means that requests were answered and that the service came to an end.
-/
namespace Willow.LockerSpec
open Willow.Locker

/-- The thread works for a client that has not been answered (the others are the timeout goroutines). -/
def forClient : Thread → Bool
  | .toWant _ | .toIn _ | .toResp _ => false
  | _ => true

/-- The event answers a request: a lock, 503, the end of a request whose client went away, the answers to heartbeats and
releases. -/
def isAnswer : Ev → Bool
  | .granted .. | .unavailable | .left .. => true
  | .hbOk _ | .hbConflict _ | .hbNotFound _ | .hbShutdown _ => true
  | .relOk .. | .relConflict _ | .relNotFound _ | .relShutdown _ => true
  | _ => false

/-- Number of requests not answered yet. -/
def unanswered (s : St) : Nat := s.threads.countP forClient
/-- Number of answers given. -/
def answers (s : St) : Nat := s.tr.countP isAnswer
/-- Number of requests that ever arrived. -/
def asked (s : St) : Nat := unanswered s + answers s

/-- The thread works for a client that went away before it got the lock. -/
def isGone : Thread → Bool
  | .leaving _ | .leavingIn .. | .leavingResp .. => true
  | _ => false
/-- The event ends the request of such a client. -/
def isLeft : Ev → Bool
  | .left .. => true
  | _ => false
/-- Number of waiting clients that ever went away. -/
def disconnected (s : St) : Nat := s.threads.countP isGone + s.tr.countP isLeft

/-- Something happens, but no new request arrives. -/
def Goes (acc : Int → Prop) (s s' : St) : Prop := Step acc s s' ∧ asked s' = asked s ∧ s' ≠ s

/-- Something happens inside the service or on the clock: no new request arrives and no client goes away. -/
def Works (acc : Int → Prop) (s s' : St) : Prop := Goes acc s s' ∧ disconnected s' = disconnected s

/-- Any number of such steps. -/
inductive Worked (acc : Int → Prop) : St → St → Prop
  | refl (s) : Worked acc s s
  | step {s s' s''} : Worked acc s s' → Works acc s' s'' → Worked acc s s''

/-- A sequence of states, each following from the one before. -/
inductive Path (R : St → St → Prop) : St → Nat → Prop
  | nil (s) : Path R s 0
  | cons {s s' n} : R s s' → Path R s' n → Path R s (n + 1)

/-- Nothing of these key-values keeps the service from ending: every request was answered, no timeout is being processed and
the goroutine of every lock returned (or was never started). -/
def AllEnded (s : St) : Prop :=
  s.threads = [] ∧ ∀ l, (s.objs l).phase = .absent ∨ (s.objs l).phase = .exited ∨ (s.objs l).phase = .notRunning

/-- A heartbeat or a release was handed to lock `l` and waits for the lock to take it. -/
def insideLock (l : LockId) : Thread → Bool
  | .hbIn l' _ | .relIn l' _ => l' == l
  | _ => false

/-- The report that a client is gone waits for lock `l` to take it. -/
def insideLost (l : LockId) : Thread → Bool
  | .leavingIn _ l' => l' == l
  | _ => false

/-- The thread waits for a lock or processes a timeout: no heartbeat, no release, no client that went away. -/
def plain : Thread → Bool
  | .waiting .. | .claimed .. | .toWant _ | .toIn _ | .toResp _ => true
  | _ => false

/-- The ways in which the service hangs:
 * a request works on a lock that was saved although it was never started;
 * a heartbeat or release of a lock that nobody holds blocks the clients that want to leave it;
 * a lock told to stop waits for its timeout, and the timeout waits for a request that waits for the lock. -/
inductive Hangs (s : St) : Prop
  | refused (l : LockId) (h : s.tree = some l) (hp : (s.objs l).phase = .notRunning) (ht : s.threads ≠ [])
  | unheld (l : LockId) (h : s.tree = some l) (hp : (s.objs l).phase = .outer) (ht : ∃ t ∈ s.threads, insideLock l t = true)
  | timeout (l : LockId) (h : s.tree = some l) (hp : (s.objs l).phase = .ctxWait)
      (ht : ∃ t ∈ s.threads, insideLock l t = true ∨ insideLost l t = true)

end Willow.LockerSpec
