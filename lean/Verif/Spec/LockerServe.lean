import Verif.Spec.LockerStop
/-
Specification of serving the clients that wait for a lock, while the service runs.
-/
namespace Willow.LockerSpec
open Willow.Locker

/-- Something happens in a running service, but no new request arrives (a heartbeat is a request). -/
def Moves (acc : Int → Prop) (s s' : St) : Prop := Goes acc s s' ∧ s'.down = false

/-- Something happens inside the running service or on the clock: no new request arrives and no client goes away. -/
def Serves (acc : Int → Prop) (s s' : St) : Prop := Works acc s s' ∧ s'.down = false

/-- Any number of such steps. -/
inductive Served (acc : Int → Prop) : St → St → Prop
  | refl (s) : Served acc s s
  | step {s s' s''} : Served acc s s' → Serves acc s' s'' → Served acc s s''

/-- The client asked for the lock and still wants it. -/
def wants : Thread → Bool
  | .waiting .. | .claimed .. => true
  | _ => false

/-- Number of clients that want the lock and do not have it yet. -/
def wanting (s : St) : Nat := s.threads.countP wants

/-- Everything is over: all requests were answered, no timeout is being processed, nobody holds the lock and it is removed. -/
def AllServed (s : St) : Prop := s.threads = [] ∧ s.tree = none ∧ live s.tr = []

/-- A client wants to leave a lock that nobody holds, and a heartbeat or a release of it that came too late waits for somebody to hold it. -/
def Stale (s : St) : Prop :=
  ∃ l, s.tree = some l ∧ (∃ t ∈ s.threads, insideLock l t = true) ∧ (∃ t ∈ s.threads, isGone t = true) ∧ live s.tr = []

end Willow.LockerSpec
