import Verif.Model.Locker
/-
Specification of the locker, on the sequence of observable events only (newest event first).
-/
namespace Willow.LockerSpec
open Willow.Locker

/-- The sessions that were granted and have neither been given up nor run out of time. -/
def live : List Ev → List Sess
  | [] => []
  | .granted _ s :: tr => s :: live tr
  | .released _ s :: tr => (live tr).filter (· != s)
  | .expired _ (some s) :: tr => (live tr).filter (· != s)
  | _ :: tr => live tr

/-- The session was granted at some time. -/
def WasGranted (tr : List Ev) (s : Sess) : Prop := ∃ l, Ev.granted l s ∈ tr

/-- All sessions ever granted. -/
def grants : List Ev → List Sess
  | [] => []
  | .granted _ s :: tr => s :: grants tr
  | _ :: tr => grants tr

/-- The events after which a session is over. -/
def Ended (tr : List Ev) (s : Sess) : Prop := ∃ l, Ev.released l s ∈ tr ∨ Ev.expired l (some s) ∈ tr

/-- The event is a success for a client using session `s`. -/
def UsesSession (e : Ev) (s : Sess) : Prop := ∃ l, e = .renewed l s ∨ e = .released l s

/-- An expired session whose timeout has not been processed yet, according to the trace. -/
def pendingTimeout : List Ev → Bool
  | [] => false
  | .expired _ _ :: _ => true
  | .timeoutDone _ _ :: _ => false
  | _ :: tr => pendingTimeout tr

/-- The client is waiting for the lock: it asked for it, has not been answered, and its disconnect has not been processed. -/
def waits : Thread → Bool
  | .waiting .. | .claimed .. | .leaving .. | .leavingIn .. => true
  | _ => false

/-- The clients waiting for lock `l` that have not been handed the claim function. -/
def waitsFor (l : LockId) : Thread → Bool
  | .waiting l' _ | .leaving l' | .leavingIn l' _ => l' == l
  | _ => false

/-- The lock runs: it was created, its goroutine was started and has not ended. -/
def running : Phase → Bool
  | .absent | .notRunning | .exited | .panicked | .stuck => false
  | _ => true

/-- Somebody has the lock or its timeout is being processed: from handing out the claim function to taking a release or a
processed timeout. -/
def occupied : Phase → Bool
  | .claiming | .held | .heldReply | .hbReply _ | .relReply .failed | .ctxWait => true
  | _ => false

end Willow.LockerSpec
