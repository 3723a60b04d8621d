import Verif.Spec.Requests
/-
Specification of the willow service seen from outside, for C77 and C79: queues with limits, their channels and the waiting items of each channel, and
what a request that succeeds does to them.
-/
namespace Willow.WorldSpec
open Willow Willow.Assoc Willow.Spec Willow.Queues Willow.Requests Willow.RequestsSpec

/-- A channel: its key-values, and the timeouts of its waiting items, oldest first. -/
abbrev Channel := KVs Key × List Int

/-- The limit of each queue (`none`: there is no such queue) and the channels of each queue. -/
structure World where
  limit : GoString → Option Int
  chans : GoString → List Channel

/-- Another limit for `n`. -/
def World.setLimit (w : World) (n : GoString) (l : Option Int) : World := { w with limit := fun b => if b = n then l else w.limit b }
/-- Other channels for `n`. -/
def World.setChans (w : World) (n : GoString) (cs : List Channel) : World := { w with chans := fun b => if b = n then cs else w.chans b }

/-- The limit in the answer to a GET. -/
def limitIn : Option Out → Option Int
  | some (.one q) => some q.2
  | _ => none
/-- What can be seen of a state: the answers to GET of each queue, and the channels. -/
def worldOf (s : Requests.St) : World := ⟨fun n => limitIn (queueOf s n), channelsOf s⟩

/-- The item goes to the end of its channel, which is created if it is not there. -/
def put (kvs : KVs Key) (t : Int) : List Channel → List Channel
  | [] => [(kvs, [t])]
  | c :: cs => if sameKVs kvs c.1 then (c.1, c.2 ++ [t]) :: cs else c :: put kvs t cs
/-- The channel is removed. -/
def drop (kvs : KVs Key) (cs : List Channel) : List Channel := cs.filter (fun c => !sameKVs kvs c.1)
/-- The first item of a channel with key-values `kvs` is taken; it has timeout `t`. -/
def Takes (cs : List Channel) (kvs : KVs Key) (t : Int) (cs' : List Channel) : Prop :=
  ∃ pre ts post, cs = pre ++ (kvs, t :: ts) :: post ∧ cs' = pre ++ (kvs, ts) :: post

/-- A query outside the counterexamples of C20 that does not ask for ids. -/
def ExactQuery (q : Query Key) : Prop := everywhere (fun s => ValidSel s ∧ SelExact s ∧ s.ids = []) Asks q ∧ (IsEmptyQuery q ∨ Asks q)
/-- The key-values satisfy the query. -/
def wanted (q : Query Key) (kvs : KVs Key) : Bool := queryHolds (fun _ => true) kvs q

/-- What a request that is not answered with an error does, and what it answers. -/
def Does (w : World) (r : Requests.Req) (o : Reply) (w' : World) : Prop :=
  match r with
  | .create b _ => ∃ n l, b = some ⟨some ⟨some (some n), some ⟨some l⟩⟩, false⟩ ∧ w.limit n = none ∧ w' = w.setLimit n (some l) ∧ o = .answer .ok
  | .list => w' = w ∧ ∃ qs, o = .answer (.all qs) ∧ (qs.map (·.1)).Nodup ∧ ∀ n l, (n, l) ∈ qs ↔ w.limit n = some l
  | .get n => w' = w ∧ ∃ l, w.limit n = some l ∧ o = .answer (.one (n, l))
  | .update n b _ _ => ∃ l, b = some ⟨some l⟩ ∧ w.limit n ≠ none ∧ w' = w.setLimit n (some l) ∧ o = .answer .ok
  | .delete n _ _ _ => w' = (w.setLimit n none).setChans n [] ∧ o = .answer .ok
  | .channelQuery n q => w' = w ∧ ∃ k, o = .channels k ∧
      ∀ q', q = some q' → ExactQuery q' → k = ((w.chans n).filter (fun c => wanted q' c.1)).length
  | .channelDelete n kvs _ _ => w.limit n ≠ none ∧ w' = w.setChans n (drop (kvsOf kvs) (w.chans n)) ∧ o = .answer .ok
  | .enqueue n b _ => w.limit n ≠ none ∧ o = .answer .ok ∧ ∃ kvs p t, b = some ⟨some (some kvs, some p), false⟩ ∧ p.timeout = some t ∧
      w' = w.setChans n (put (kvsOf kvs) t (w.chans n))
  | .dequeue n q _ _ => w.limit n ≠ none ∧ ∃ kvs t cs, o = .item t ∧ Takes (w.chans n) kvs t cs ∧ w' = w.setChans n cs ∧
      ∀ q', q = some q' → ExactQuery q' → wanted q' kvs = true
  | .ack n b res => w.limit n ≠ none ∧ o = .answer .ok ∧ ∃ ref, b = some ref ∧ (∃ c ∈ w.chans n, sameKVs (kvsOf ref.kvs) c.1 = true) ∧
      ((res = .ok ∧ w' = w) ∨ (res = .okEmpty ∧
        w' = w.setChans n ((w.chans n).filter (fun c => !(sameKVs (kvsOf ref.kvs) c.1 && c.2.isEmpty)))))
  | .heartbeat n b _ => w.limit n ≠ none ∧ w' = w ∧ o = .answer .ok ∧ ∃ ref, b = some ref ∧ ∃ c ∈ w.chans n, sameKVs (kvsOf ref.kvs) c.1 = true
  | .other _ => w' = w

/-- What a request that is answered with an error does: nothing, except that a delete of a queue may already have destroyed its channels, and a
delete of a channel may have deleted it. -/
def Fails (w : World) (r : Requests.Req) (w' : World) : Prop :=
  w' = w ∨
  match r with
  | .delete n _ _ _ => w' = w.setChans n []
  | .channelDelete n kvs complete _ => (complete = false ∨ validKVs false kvs = false) ∧ w' = w.setChans n (drop (kvsOf kvs) (w.chans n))
  | _ => False

/-- A history of requests and answers that leads from one world to another. -/
inductive Runs : World → List Requests.Req → List Reply → World → Prop
  | nil (w : World) : Runs w [] [] w
  | ok {w w1 w' : World} {r : Requests.Req} {o : Reply} {rs : List Requests.Req} {os : List Reply} :
      Does w r o w1 → ¬ IsError o → Runs w1 rs os w' → Runs w (r :: rs) (o :: os) w'
  | error {w w1 w' : World} {r : Requests.Req} {o : Reply} {rs : List Requests.Req} {os : List Reply} :
      Fails w r w1 → IsError o → Runs w1 rs os w' → Runs w (r :: rs) (o :: os) w'

/-- No queues and no channels. -/
def World.empty : World := ⟨fun _ => none, fun _ => []⟩

/-- The queue that a request names. -/
def namedBy : Requests.Req → Option GoString
  | .create (some ⟨some ⟨some (some n), _⟩, _⟩) _ => some n
  | .get n | .update n _ _ _ | .delete n _ _ _ | .channelQuery n _ | .channelDelete n _ _ _ | .enqueue n _ _ | .dequeue n _ _ _ | .ack n _ _
  | .heartbeat n _ _ => some n
  | _ => none

/-! ### Counting items -/

/-- How many items with timeout `t` wait. -/
def waiting (t : Int) (cs : List Channel) : Nat := (cs.map (fun c => c.2.count t)).sum
/-- 1 if the request put an item with timeout `t` into the queue `n`. -/
def got (n : GoString) (t : Int) : Requests.Req → Reply → Nat
  | .enqueue a (some ⟨some (_, some p), _⟩) _, .answer .ok => if a = n ∧ p.timeout = some t then 1 else 0
  | _, _ => 0
/-- 1 if the request was given an item with timeout `t` from the queue `n`. -/
def gave (n : GoString) (t : Int) : Requests.Req → Reply → Nat
  | .dequeue a _ _ _, .item t' => if a = n ∧ t' = t then 1 else 0
  | _, _ => 0
/-- How many items with timeout `t` were accepted for `n`. -/
def accepted (n : GoString) (t : Int) : List Requests.Req → List Reply → Nat
  | r :: rs, o :: os => got n t r o + accepted n t rs os
  | _, _ => 0
/-- How many items with timeout `t` were delivered from `n`. -/
def delivered (n : GoString) (t : Int) : List Requests.Req → List Reply → Nat
  | r :: rs, o :: os => gave n t r o + delivered n t rs os
  | _, _ => 0
/-- The request deletes the queue `n` or a channel of it. -/
def Destroys (n : GoString) : Requests.Req → Prop
  | .delete a _ _ _ | .channelDelete a _ _ _ => a = n
  | _ => False

end Willow.WorldSpec
