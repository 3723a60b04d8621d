import Verif.Model.Channel
/-
What it means that a channel goes on by itself, while its consumers take what they are offered and the limiter allows it.
-/
namespace Willow.ChanSpec
open Willow.Channel
variable {D : Type}

/-- Everything but the history. -/
def content (s : St D) : St D := { s with log := [] }

/-- How many requests to enqueue an item were answered and how many deliveries failed because the consumer was gone. -/
def setbacks (h : List (Ev D)) : Nat :=
  h.countP (fun | .enqueued .. | .updated .. | .refused | .unsent .. => true | _ => false)

/-- Something changes in the channel: a delivery, a timeout, an ACK (passed or failed) or a heartbeat.  Nothing is enqueued, no consumer goes away
before it got its item, the channel is not deleted, and the limiter does not refuse. -/
structure Goes (s s' : St D) : Prop where
  step : Step s s'
  change : content s' ≠ content s
  quiet : setbacks s'.log = setbacks s.log
  still : s'.closed = s.closed
  allowed : s'.exec = .spin → s.exec = .spin

/-- `n` such changes, one after the other. -/
inductive Gone : St D → Nat → St D → Prop
  | refl (s) : Gone s 0 s
  | step {s n s' s''} : Gone s n s' → Goes s' s'' → Gone s (n + 1) s''

/-- Nothing changes any more. -/
def Rests (s : St D) : Prop := ∀ s', ¬ Goes s s'

/-! ### Whose turn comes before -/

/-- How often items were handed out. -/
def deliveries (h : List (Ev D)) : Nat := h.countP (fun | .taken .. => true | _ => false)

/-- How often a delivery failed because the consumer was gone, and the item went back. -/
def losses (h : List (Ev D)) : Nat := h.countP (fun | .unsent _ true => true | _ => false)

/-- How often an item can still be handed out before its retries are used up. -/
def chances (it : Item D) : Nat := if it.hb = .none then it.maxRetry + 1 - it.retryCount else it.maxRetry - it.retryCount

/-- How often other items can still be handed out before item `x`, which waits: the items in front of it, and those that are being processed, with
all their retries; but nothing that is behind it. -/
def turns (s : St D) (x : Nat) : Nat :=
  (s.items.map fun e => if e.1 = x ∨ (e.1 ∈ s.queue ∧ e.1 ∉ s.queue.takeWhile (· != x)) then 0 else chances e.2).sum

/-- Anything that may happen after `s`. -/
inductive Then : St D → St D → Prop
  | refl (s) : Then s s
  | step {s s' s''} : Then s s' → s'.crashed = false → Step s' s'' → Then s s''

end Willow.ChanSpec
