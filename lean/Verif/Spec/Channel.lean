import Verif.Model.Channel
/-
What a history of a channel says about an item, independently of how the channel stores it.  Histories are newest first.
-/
namespace Willow.ChanSpec
open Willow.Channel
variable {D : Type}

/-- the request an event stores for item `id` -/
def reqOf (id : Nat) : Ev D → Option (Req D)
  | .enqueued i r | .updated i r => if i = id then some r else none
  | _ => none

/-- the last request for item `id` -/
def lastReq (id : Nat) (h : List (Ev D)) : Option (Req D) := h.findSome? (reqOf id)

/-- what happened after the last request for item `id` -/
def since (id : Nat) (h : List (Ev D)) : List (Ev D) := h.takeWhile (fun e => (reqOf id e).isNone)

/-- how often item `id` was stored -/
def enqueues (id : Nat) (h : List (Ev D)) : Nat := h.countP (fun | .enqueued i _ => i == id | _ => false)

/-- how often item `id` was handed out -/
def takes (id : Nat) (h : List (Ev D)) : Nat := h.countP (fun | .taken i _ => i == id | _ => false)

/-- how often handing it out failed (while nobody acked it) -/
def unsents (id : Nat) (h : List (Ev D)) : Nat := h.countP (fun | .unsent i true => i == id | _ => false)

/-- how often it failed while it was processed -/
def fails (id : Nat) (h : List (Ev D)) : Nat := h.countP (fun | .failed i => i == id | _ => false)

/-- how often it was removed: by a successful ack, by using up its retries, or by being superseded -/
def removals (id : Nat) (h : List (Ev D)) : Nat :=
  h.countP (fun | .ackPassed i true => i == id | .exhausted i => i == id | .superseded i _ => i == id | _ => false)

/-- the item has the content of the request -/
def Content (it : Item D) (r : Req D) : Prop :=
  it.data = r.data ∧ it.updateable = r.updateable ∧ it.maxRetry = r.maxRetry ∧ it.pos = r.pos

/-- items handed out and not yet acked, failed or timed out -/
def processing (s : St D) : List Nat := (s.items.filter (fun e => e.2.hb != .none)).map (·.1)

/-- all stored items -/
def stored (s : St D) : List Nat := s.items.map (·.1)

end Willow.ChanSpec
