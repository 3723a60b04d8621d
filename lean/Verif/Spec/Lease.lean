import Verif.Model.Lease
/-
Specification for C58 and C71: what a user of a lock sees.
-/
namespace Willow.LeaseSpec
open Lease

/-- The client of claim `x` still believes it holds the lock: ObtainLock gave it the lock and its Done channel is open. -/
def Believes (s : St) (x : Nat) : Prop := (s.cli x).phase = .holding

/-- Claim `y` was granted by the server, after claim `x`. -/
def GrantedAfter (s : St) (x y : Nat) : Prop := x < y ∧ y < s.next

/-- The time of a claim on the server. -/
def grantedAt (s : St) (y : Nat) : Nat := (s.cli y).granted

/-- The user of claim `x` has given the lock up: Release was called, or ObtainLock returned an error. -/
def GivenUp (s : St) (x : Nat) : Prop := (s.cli x).released = true

end Willow.LeaseSpec
