import Verif.Model.Client
import Verif.Spec.World
import Verif.Spec.Utf8
/-
Specification for C76 and C77: what the calls of the willow client ask for.
-/
namespace Willow.ClientSpec
open Willow Willow.Requests Willow.Client Willow.WorldSpec

/-- A name whose bytes mean themselves in a URL: not empty, no control bytes, and none of `#`, `%`, `/` and `?`. -/
def Plain (n : GoString) : Prop := n ≠ [] ∧ ∀ b ∈ n, 32 ≤ b.toNat ∧ b ≠ 127 ∧ b ≠ 35 ∧ b ≠ 37 ∧ b ≠ 47 ∧ b ≠ 63

instance (n : GoString) : Decidable (Plain n) := by unfold Plain; infer_instance

/-- The queue that a call names. -/
def nameOf : Call → Option GoString
  | .createQueue _ | .listQueues => none
  | .getQueue n _ | .updateQueue n _ | .deleteQueue n | .enqueue n _ | .dequeue n _ | .deleteChannel n _ | .ack n _ | .heartbeat n _ => some n

/-- The call is accepted by the client: its argument passes the validator. -/
def Accepted : Call → Prop
  | .createQueue b => b.validateSpecOnly = true
  | .listQueues | .deleteQueue _ => True
  | .getQueue _ q | .dequeue _ q => validQuery q = true
  | .updateQueue _ p => p.validate = true
  | .enqueue _ b => b.validateSpecOnly = true
  | .deleteChannel _ kvs => validKVs false kvs = true
  | .ack _ r | .heartbeat _ r => r.validate = true

/-- What a call asks of the service. -/
def asks (e : Env) : Call → Requests.Req
  | .createQueue b => .create (some b) e.up
  | .listQueues => .list
  | .getQueue n _ => .get n
  | .updateQueue n p => .update n (some p) e.upQ e.up
  | .deleteQueue n => .delete n e.upC e.upQ e.up
  | .enqueue n b => .enqueue n (some b) e.admit
  | .dequeue n q => .dequeue n (some q) e.pick e.admit
  | .deleteChannel n kvs => .channelDelete n kvs true e.up
  | .ack n r => .ack n (some r) e.res
  | .heartbeat n r => .heartbeat n (some r) e.found

/-- The call is the background heartbeat of an item. -/
def IsHeartbeat : Call → Prop
  | .heartbeat .. => True
  | _ => False

/-- The names in a call survive the way to the service: plain in URLs, UTF-8 in bodies (C76). -/
def Survives (c : Call) : Prop :=
  (∀ n, nameOf c = some n → Plain n) ∧ ∀ n p st, c = .createQueue ⟨some ⟨some (some n), p⟩, st⟩ → Spec.ValidUtf8 n

/-- What a call that returns no error says; `none`: it returns an error. -/
def saysOf : Result → Option Reply
  | .ok => some (.answer .ok)
  | .queue q => some (.answer (.one q))
  | .queues l => some (.answer (.all l))
  | .item t => some (.item t)
  | .apiError _ | .failed => none

/-- A call that returns no error did what it asked for, and returned what it found; one that returns an error changed nothing, except that
DeleteQueue may have destroyed the channels. -/
def Honest (w : World) (e : Env) (c : Call) (res : Result) (w' : World) : Prop :=
  match saysOf res with
  | some o => Does w (asks e c) o w'
  | none => w' = w ∨ ∃ n, c = .deleteQueue n ∧ w' = w.setChans n []

end Willow.ClientSpec
