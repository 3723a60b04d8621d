import Verif.Model.Requests
import Verif.Spec.Queues
import Verif.Spec.OneToMany
/-
Specification for the requests of willow: which requests are outside the reported crashes, and what a client can observe.
-/
namespace Willow.RequestsSpec
open Willow Willow.Assoc Willow.Spec Willow.Queues Willow.QueuesSpec Willow.Requests Willow.LimSpec

/-- The request was answered. -/
def Answered (r : Reply) : Prop := r ≠ .panicked ∧ r ≠ .died

/-- The reply is an error status. -/
def IsError : Reply → Prop
  | .rejected | .answer .notFound | .answer .conflict | .answer .internal => True
  | _ => False

/-- What an accepted request asks of the queues. -/
def queueReq? : Requests.Req → Option Queues.Req
  | .create (some ⟨some ⟨some (some n), some ⟨some l⟩⟩, false⟩) up => if n = [] then none else some (.create n l up)
  | .list => some .list
  | .get n => some (.get n)
  | .update n (some ⟨some l⟩) upQ up => some (.update n l upQ up)
  | .delete n _ upQ up => some (.delete n upQ up)
  | .other op => some (.other op)
  | _ => none

/-- The queues after a request. -/
def mapStep (m : Map) (r : Requests.Req) : Map :=
  match queueReq? r with
  | some q => (QueuesSpec.specStep m q).1
  | none => m

/-- How much other users add to counters. -/
def amountOf (r : Requests.Req) : Int :=
  match queueReq? r with
  | some q => reqAmount q
  | none => 0

/-- Every sub-query, and the query unless it is completely empty, asks for something. -/
def Proper (q : Query Key) : Prop := everywhere (fun _ => True) Asks q ∧ (IsEmptyQuery q ∨ Asks q)

/-- The keys of a decoded Go map are different. -/
def Distinct (kvs : RawKVs) : Prop := (kvs.map (·.1)).Nodup

/-- The data is as Go has it: limits are int64, keys of maps are different; other users of the limiter send valid requests. -/
def WellTyped (rule : Nat) (r : Requests.Req) : Prop :=
  (∀ q, queueReq? r = some q → ValidReq rule q) ∧
  match r with
  | .enqueue _ (some ⟨some (some kvs, _), _⟩) _ => Distinct kvs
  | .channelDelete _ kvs _ _ => Distinct kvs
  | .ack _ (some b) _ | .heartbeat _ (some b) _ => Distinct b.kvs
  | _ => True

/-- What the partial theorem leaves out, because it crashes, or because it damages the queues (C56): queues without properties, queries that
contain a sub-query without any condition, timeouts that are not positive, deleting channels of an existing queue with invalid key-values, and
a limiter that cannot be reached while something is updated, acked or deleted. -/
def Tame (m : Map) (r : Requests.Req) : Prop :=
  (∀ q, queueReq? r = some q → Safe m q) ∧
  match r with
  | .create (some ⟨some ⟨some (some n), none⟩, false⟩) _ => n = [] ∨ m.get? n ≠ none
  | .delete n upC _ _ => m.get? n = none ∨ upC = true
  | .channelQuery _ (some q) | .dequeue _ (some q) _ _ => Proper q
  | .channelDelete n kvs _ up => m.get? n = none ∨ (kvs ≠ [] ∧ (∀ kv ∈ kvs, kv.2 ≠ none) ∧ up = true)
  | .enqueue _ (some ⟨some (_, some p), _⟩) _ => ∀ t, p.timeout = some t → 0 < t
  | .ack _ _ res => res ≠ .limiterFailed
  | _ => True

/-- Every request of the history is well-typed and tame when it is made. -/
def TameRun (rule : Nat) (m : Map) : List Requests.Req → Prop
  | [] => True
  | r :: rs => WellTyped rule r ∧ Tame m r ∧ TameRun rule (mapStep m r) rs

/-- The sum over a history. -/
def amountsOf (rs : List Requests.Req) : Int := (rs.map amountOf).sum

/-- What GET of a queue answers. -/
def queueOf (s : Requests.St) (n : GoString) : Option Out := (getQueue s.q n).map (·.2)

/-- The channels of a queue: key-values and the timeouts of the waiting items. -/
def channelsOf (s : Requests.St) (n : GoString) : List (KVs Key × List Int) :=
  ((OTM.rel s.chans n).map (fun t => t.items.map (fun i => (i.kvs, s.heap.getD i.value.value [])))).getD []

/-- No client can tell the states apart by the queues, their limits, the channels and their items. -/
def Unchanged (s s' : Requests.St) : Prop := (∀ n, queueOf s' n = queueOf s n) ∧ ∀ n, channelsOf s' n = channelsOf s n

end Willow.RequestsSpec
