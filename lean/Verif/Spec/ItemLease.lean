import Verif.Model.ItemLease
/-
Specification for C72 and C73: what a consumer of an item sees.
-/
namespace Willow.ItemLeaseSpec
open ItemLease

/-- The consumer of delivery `x` still believes the item is its own: it was given the item and its Done channel is open. -/
def Believes (s : St) (x : Nat) : Prop := (s.cli x).phase = .holding

/-- The item was delivered again, as delivery `y`, after delivery `x`. -/
def DeliveredAfter (s : St) (x y : Nat) : Prop := x < y ∧ y < s.next

/-- The time of a delivery on the server. -/
def deliveredAt (s : St) (y : Nat) : Nat := (s.cli y).delivered

end Willow.ItemLeaseSpec
