/-
Model of one queue channel: internal/willow/brokers/queue_channels/memory/memory_queue_channel.go and memory_queue_channel_item.go,
as a transition system.

One step for each critical section or channel rendezvous:
* `Enqueue`, `failItem` and the failure callback hold `itemsLock` from beginning to end; a passed ACK does everything inside one
  `items.Delete` callback and touches only an item that is in no list.  Each is one step, including its calls to the limiter.
* A dequeue is several steps (the client's call of the function received from `dequeueChan`, the limiter call, the pop, the find, and
  the success or failure callback), so that everything else can happen in between.
* `ForceDelete` is several steps for the same reason.

Simplifications:
* `items` (a B-tree from ids to items) is an association list; that the tree is a map is the subject of C01-C10.
* Ids come from a counter: `idgenerator.UUID()` never repeats an id.
* `notifier` (github.com/DanLavine/gonotify, not in /repo) is the number of `Add`s not yet received from `Ready()`.
* The heartbeater of an item is one of four states; that exactly one of Stop, timeout and shutdown ends it is C33 and C34.  A call
  of Stop or Heartbeat that meets a timeout callback already running, and a Heartbeat before Start, do not return (see
  Model/ChannelLocks.lean): there is no step for them here.
* The two limiter counters of the channel are numbers: the limiter answers +1 with yes or no at will, -1 stops at 0 (C39).
* `retryCount` is not limited to 64 bits.
* The shutdown of the server is not modelled (the channel lives in memory only), so `AddExecuteTask` does not fail: the manager
  refuses tasks only after a shutdown, or after a deletion, when there are no items.
-/
namespace Willow.Channel

/-- `RetryPosition`, validated to be one of the two (pkg/models/api/willow/v1/item.go:126-136). -/
inductive Pos
  | front
  | back
deriving DecidableEq, Repr

/-- The properties in an enqueue request (item.go:92-107). -/
structure Req (D : Type) where
  data : D
  updateable : Bool
  maxRetry : Nat
  pos : Pos
  timeout : Int
deriving DecidableEq, Repr

/-- The heartbeat process of an item. -/
inductive HB
  /-- nil -/
  | none
  /-- created, not started (memory_queue_channel_item.go:41-56) -/
  | created
  /-- started (66-75) -/
  | running
  /-- its timeout callback was called and did not reach `UnsetHeartbeater` yet -/
  | firing
deriving DecidableEq, Repr

/-- memory_queue_channel_item.go:10-23 `item`. -/
structure Item (D : Type) where
  data : D
  updateable : Bool
  retryCount : Nat
  maxRetry : Nat
  pos : Pos
  timeout : Int
  hb : HB
deriving DecidableEq, Repr

/-- memory_queue_channel_item.go:25-38 `newItem`. -/
def newItem {D : Type} (r : Req D) : Item D := ⟨r.data, r.updateable, 0, r.maxRetry, r.pos, r.timeout, .none⟩

/-- memory_queue_channel_item.go:77-88: does `StopHeartbeater` return true? -/
def HB.stops : HB → Bool
  | .created | .running => true
  | .none | .firing => false

/-- memory_queue_channel_item.go:66-75 `StartHeartbeater`. -/
def HB.start : HB → HB
  | .created => .running
  | h => h

/-- Where `Execute` and the client it sent the dequeue function to are. -/
inductive Exec
  /-- the first select (memory_queue_channel.go:155-165) -/
  | idle
  /-- the second select (167-176), after a notification -/
  | offering
  /-- waiting for the answer (179); the client did not call the limiter yet (594) -/
  | called
  /-- the running counter is incremented (594-603), the first id is not taken yet -/
  | counted
  /-- the id is taken (606-609), the item is not looked up yet -/
  | popped (id : Nat)
  /-- the item was returned (663); `touched`: a call with this id was made since (not part of the
  program: it only helps to state invariants) -/
  | handed (id : Nat) (touched : Bool)
  /-- over the limit (183-324) -/
  | spin
  /-- returned -/
  | stopped
deriving DecidableEq, Repr

/-- What happens (the observable history). -/
inductive Ev (D : Type)
  /-- a new item was stored -/
  | enqueued (id : Nat) (r : Req D)
  /-- the waiting item was updated -/
  | updated (id : Nat) (r : Req D)
  /-- the enqueue was refused: limit reached -/
  | refused
  /-- the item was handed out with this content -/
  | taken (id : Nat) (it : Item D)
  /-- it was sent to the client -/
  | received (id : Nat)
  /-- it could not be sent to the client; `still`: no call with its id (by a client that received it earlier) ended its processing
  in the meantime -/
  | unsent (id : Nat) (still : Bool)
  /-- answer to a passed ACK -/
  | ackPassed (id : Nat) (ok : Bool)
  /-- answer to a failed ACK -/
  | ackFailed (id : Nat) (ok : Bool)
  /-- the item timed out -/
  | timedOut (id : Nat)
  /-- an item being processed failed: by ACK or timeout -/
  | failed (id : Nat)
  /-- it went back into the list -/
  | requeued (id : Nat)
  /-- removed: retries used up -/
  | exhausted (id : Nat)
  /-- removed by a newer item or a retry; `counted`: the enqueued counter was decremented -/
  | superseded (id : Nat) (counted : Bool)
  /-- answer to a heartbeat -/
  | beat (id : Nat) (ok : Bool)
  /-- deleted because it was empty -/
  | deleted
  /-- `ForceDelete` began -/
  | forced
deriving DecidableEq, Repr

/-- memory_queue_channel.go:29-60 and the two counters in the limiter. -/
structure St (D : Type) where
  items : List (Nat × Item D) := []
  /-- itemIDsEnqueued -/
  queue : List Nat := []
  nextId : Nat := 0
  pending : Nat := 0
  enq : Nat := 0
  run : Nat := 0
  exec : Exec := .idle
  /-- deleteChan is closed -/
  closed : Bool := false
  /-- ForceDelete was called -/
  forced : Bool := false
  /-- `items.DestroyAll` is running or has run -/
  destroying : Bool := false
  destroyed : Bool := false
  /-- a Go panic -/
  crashed : Bool := false
  /-- newest first -/
  log : List (Ev D) := []
deriving Repr

section
variable {D : Type}

/-- `items.Find` of one id. -/
def lookup (l : List (Nat × Item D)) (id : Nat) : Option (Item D) := (l.find? (fun e => e.1 == id)).map (·.2)

/-- Change the item with this id. -/
def change (l : List (Nat × Item D)) (id : Nat) (f : Item D → Item D) : List (Nat × Item D) :=
  l.map (fun e => if e.1 == id then (e.1, f e.2) else e)

/-- `items.Delete` of one id. -/
def remove (l : List (Nat × Item D)) (id : Nat) : List (Nat × Item D) := l.filter (fun e => e.1 != id)

/-- Record an event. -/
def St.ev (s : St D) (e : Ev D) : St D := { s with log := e :: s.log }

/-! ### Enqueue -/

/-- memory_queue_channel.go:347-381: the last waiting item, if it is updateable. -/
def updatableLast (s : St D) : Option Nat :=
  match s.queue.getLast? with
  | none => none
  | some id => match lookup s.items id with
    | none => none
    | some it => if it.updateable then some id else none

/-- memory_queue_channel.go:360-368: the update of an item (the timeout is not updated). -/
def update (r : Req D) (it : Item D) : Item D :=
  { it with data := r.data, updateable := r.updateable, maxRetry := r.maxRetry, pos := r.pos, retryCount := 0 }

/-- memory_queue_channel.go:341-413 `Enqueue`; `grant` is the limiter's answer. -/
def enqueue (s : St D) (r : Req D) (grant : Bool) : St D :=
  match updatableLast s with
  | some id => St.ev { s with items := change s.items id (update r) } (.updated id r)
  | none =>
    if grant then
      St.ev { s with
        items := s.items ++ [(s.nextId, newItem r)], queue := s.queue ++ [s.nextId], nextId := s.nextId + 1,
        pending := s.pending + 1, enq := s.enq + 1 } (.enqueued s.nextId r)
    else s.ev .refused

/-! ### ACK -/

/-- Does the id name the item whose hand-out is not completed? -/
def touch (e : Exec) (id : Nat) : Exec :=
  match e with
  | .handed i t => .handed i (t || i == id)
  | e => e

/-- memory_queue_channel.go:426-461 `ACK` with Passed. -/
def ackPassed (s : St D) (id : Nat) : St D :=
  match lookup s.items id with
  | none => s.ev (.ackPassed id false)
  | some it =>
    if it.hb.stops then
      St.ev { s with items := remove s.items id, run := s.run - 1, enq := s.enq - 1, exec := touch s.exec id } (.ackPassed id true)
    else s.ev (.ackPassed id false)

/-- memory_queue_channel.go:533-534, 561-562: put the id at the end and notify. -/
def pushBack (s : St D) (id : Nat) : St D := St.ev { s with queue := s.queue ++ [id], pending := s.pending + 1 } (.requeued id)

/-- memory_queue_channel.go:525-526, 730-731: put the id at the front and notify. -/
def pushFront (s : St D) (id : Nat) : St D := St.ev { s with queue := id :: s.queue, pending := s.pending + 1 } (.requeued id)

/-- memory_queue_channel.go:529-535, 547-570: the "back" position. -/
def retryBack (s : St D) (id : Nat) : St D :=
  match s.queue.getLast? with
  | none => pushBack s id
  | some b => match lookup s.items b with
    | none => s
    | some bi =>
      if bi.updateable then
        St.ev (St.ev { s with queue := s.queue.dropLast ++ [id], items := remove s.items b } (.superseded b false)) (.requeued id)
      else pushBack s id

/-- memory_queue_channel.go:485-541: an item that was being processed failed.  `it` is the item before. -/
def retry (s0 : St D) (id : Nat) (it : Item D) : St D :=
  let s := St.ev { s0 with
    items := change s0.items id (fun i => { i with hb := .none, retryCount := i.retryCount + 1 }), run := s0.run - 1 } (.failed id)
  if it.retryCount + 1 > it.maxRetry then
    St.ev { s with items := remove s.items id, enq := s.enq - 1 } (.exhausted id)
  else match it.pos with
    | .front =>
      if s.queue ≠ [] ∧ it.updateable = true then St.ev { s with items := remove s.items id } (.superseded id false)
      else pushFront s id
    | .back => retryBack s id

/-- memory_queue_channel.go:471-573 `failItem`: the state, and the returned `attemptedDelete`. -/
def failItem (s : St D) (id : Nat) (timedOut : Bool) : St D × Bool :=
  match lookup s.items id with
  | none => (s, false)
  | some it => if timedOut || it.hb.stops then (retry s id it, true) else (s, true)

/-- memory_queue_channel.go:462-468 `ACK` with not Passed. -/
def ackFailed (s : St D) (id : Nat) : St D :=
  let r := failItem { s with exec := touch s.exec id } id false
  r.1.ev (.ackFailed id r.2)

/-- memory_queue_channel.go:749-769 `Heartbeat`. -/
def heartbeat (s : St D) (id : Nat) : St D :=
  let s := { s with exec := touch s.exec id }
  match lookup s.items id with
  | none => s.ev (.beat id false)
  | some it => s.ev (.beat id (it.hb == .running))

/-! ### Dequeue -/

/-- memory_queue_channel.go:593-603: the limiter call. -/
def count (s : St D) (grant : Bool) : St D :=
  if grant then { s with run := s.run + 1, exec := .counted }
  else { s with pending := s.pending + 1, exec := .spin }

/-- memory_queue_channel.go:605-609: take the first id; Go panics if there is none. -/
def pop (s : St D) : St D :=
  match s.queue with
  | [] => { s with crashed := true }
  | id :: q => { s with queue := q, exec := .popped id }

/-- memory_queue_channel.go:611-663: find the item, create its heartbeater (memory_queue_channel_item.go:41-56 panics if it has
one) and return.  A tree that is being destroyed makes `Find` fail and this panic. -/
def find (s : St D) (id : Nat) : St D :=
  if s.destroying ∧ s.destroyed = false then { s with crashed := true }
  else match lookup s.items id with
    | none => { s with exec := .handed id false }
    | some it =>
      if it.hb ≠ .none then { s with crashed := true }
      else St.ev { s with items := change s.items id (fun i => { i with hb := .created }), exec := .handed id false } (.taken id it)

/-- memory_queue_channel.go:667-692: the success callback. -/
def received (s : St D) (id : Nat) : St D :=
  if s.destroying ∧ s.destroyed = false then { s with crashed := true }
  else St.ev { s with items := change s.items id (fun i => { i with hb := i.hb.start }), exec := .idle } (.received id)

/-- memory_queue_channel.go:707-738: what the failure callback does with the item. -/
def giveBack (s : St D) (id : Nat) (it : Item D) : St D :=
  if it.hb.stops then
    let s := { s with items := change s.items id (fun i => { i with hb := .none }) }
    if it.updateable = true ∧ s.queue ≠ [] then St.ev { s with items := remove s.items id, enq := s.enq - 1 } (.superseded id true)
    else { s with queue := id :: s.queue, pending := s.pending + 1 }
  else s

/-- memory_queue_channel.go:695-747: the failure callback. -/
def unsent (s0 : St D) (id : Nat) : St D :=
  if s0.destroying ∧ s0.destroyed = false then { s0 with crashed := true }
  else
    let s := { s0 with run := s0.run - 1, exec := .idle }
    match lookup s.items id with
    | none => s.ev (.unsent id false)
    | some it => giveBack (s.ev (.unsent id it.hb.stops)) id it

/-- memory_queue_channel.go:643-648: the timeout callback (the deletion of the channel that it tries afterwards is the step
`delete`). -/
def timeout (s : St D) (id : Nat) : St D :=
  if s.destroying then { s with crashed := true }
  else (failItem (s.ev (.timedOut id)) id true).1

/-! ### Deletion -/

/-- memory_queue_channel.go:96-106 `Delete`. -/
def delete (s : St D) : St D := if s.items.isEmpty then St.ev { s with closed := true } .deleted else s

/-- memory_queue_channel.go:110-125: the first part of `ForceDelete`. -/
def forceBegin (s : St D) : St D := St.ev { s with closed := true, forced := true, enq := 0, run := 0 } .forced

/-- Do no call of Stop in `DestroyAll` meet a running timeout callback? -/
def noneFiring (s : St D) : Bool := s.items.all (fun e => e.2.hb != .firing)

/-- The states of `Execute` in which it looks at `deleteChan` (155-162, 167-174, 314-321). -/
def Exec.listens : Exec → Bool
  | .idle | .offering | .spin => true
  | _ => false

/-- Steps. -/
inductive Step : St D → St D → Prop
  /-- the client guards calls on the channel against its deletion: queue_channels_client_local.go:159-193 -/
  | enqueue {s} (r : Req D) (grant : Bool) : s.closed = false → Step s (enqueue s r grant)
  /-- 262-297; a Stop that meets a running timeout callback does not return -/
  | ackPassed {s} (id : Nat) : s.closed = false → (∀ it, lookup s.items id = some it → it.hb ≠ .firing) → Step s (ackPassed s id)
  | ackFailed {s} (id : Nat) : s.closed = false → (∀ it, lookup s.items id = some it → it.hb ≠ .firing) → Step s (ackFailed s id)
  /-- 301-321; a Heartbeat before Start does not return either -/
  | heartbeat {s} (id : Nat) : s.closed = false → (∀ it, lookup s.items id = some it → it.hb = .none ∨ it.hb = .running) →
      Step s (heartbeat s id)
  /-- memory_queue_channel.go:163 -/
  | notified {s} : s.exec = .idle → 0 < s.pending → Step s { s with exec := .offering, pending := s.pending - 1 }
  /-- 175 -/
  | send {s} : s.exec = .offering → Step s { s with exec := .called }
  | count {s} (grant : Bool) : s.exec = .called → Step s (count s grant)
  | pop {s} : s.exec = .counted → Step s (pop s)
  | find {s id} : s.exec = .popped id → Step s (find s id)
  /-- (the empty answer of an item that was not found is never sent, pkg/models/api/server.go:92-97: this allows more) -/
  | received {s id t} : s.exec = .handed id t → Step s (received s id)
  | unsent {s id t} : s.exec = .handed id t → Step s (unsent s id)
  /-- 309-311: under the limit again -/
  | spinDone {s} : s.exec = .spin → Step s { s with exec := .idle }
  /-- heartbeater.go:102-104 -/
  | fire {s id it} : lookup s.items id = some it → it.hb = .running →
      Step s { s with items := change s.items id (fun i => { i with hb := .firing }) }
  | timeout {s id it} : lookup s.items id = some it → it.hb = .firing → Step s (timeout s id)
  /-- queue_channels_client_local.go:136-139, 283-287 -/
  | delete {s} : s.closed = false → Step s (delete s)
  | forceBegin {s} : s.closed = false → Step s (forceBegin s)
  /-- threadsafe_destroy.go:74-84: all operations on the tree that are in progress are waited for -/
  | forceMark {s} : s.forced = true → s.destroying = false → Step s { s with destroying := true }
  /-- memory_queue_channel.go:127-139 -/
  | forceEnd {s} : s.destroying = true → s.destroyed = false → noneFiring s = true →
      Step s { s with items := [], destroyed := true }
  /-- 159-162, 171-174, 318-321 -/
  | stop {s} : s.closed = true → s.exec.listens = true → Step s { s with exec := .stopped }

/-- A new channel (memory_queue_channel.go:62-93). -/
def init : St D := {}

/-- Reachable states: nothing happens after a panic. -/
inductive Reach : St D → Prop
  | init : Reach init
  | step {s s'} : Reach s → s.crashed = false → Step s s' → Reach s'

end
end Willow.Channel
