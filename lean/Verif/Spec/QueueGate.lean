import Verif.Model.QueueGate
/-
Vocabulary for concurrent requests on queues.
-/
namespace Willow.GateSpec
open Willow.QueueGate

/-- The states after a history. -/
def Reachable (s : St) : Prop := ∃ ls, run St.init ls = some s

/-- The request was answered. -/
def Answered (c : Call) : Prop := c.pc = if c.kind = .write then 6 else 5

/-- A dequeue request of queue `q` that waits for an item, its client connected. -/
def Waits (c : Call) (q : Nat) : Prop := c.kind = .dequeue q ∧ c.pc = 3 ∧ c.closed = false

/-- An item for queue `q` that was accepted, but whose request has not added it yet. -/
def Underway (c : Call) (q : Nat) : Prop := c.kind = .enqueue q ∧ 1 ≤ c.pc ∧ c.pc ≤ 3

end Willow.GateSpec
