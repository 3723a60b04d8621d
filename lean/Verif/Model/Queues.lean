import Verif.Model.Queue
import Verif.Model.BTree
/-
The queues of willow: queues_client_local.go (the B-tree of queues by name), queues/memory/memory_queue.go and the requests these send
to the limiter, one request at a time.

Simplifications:
* The channels of a queue are left out here (Model/Queue.lean, Model/Channel.lean): DestroyChannelsForQueue always succeeds when
  nothing else runs (queue_channels_client_local.go:85-106).
* A request to the limiter either arrives and is answered, or fails (connection, timeout, limit below -1) without having had an effect.
* `none` is a panic in the request (memory_queue.go:97-102, 141-146).
* Requests run one after the other; "currently being destroyed" answers do not occur.
-/
namespace Willow.Queues
open Willow Willow.Assoc Willow.Spec Willow.Limiter Willow.Queue

/-- queues/memory/memory_queue.go:20-29 `memoryQueue`. -/
structure MemQueue where
  limit : Int
  name : GoString
deriving DecidableEq, Repr

/-- queues_client_local.go:25-36 `queueClientLocal`.  The tree stores pointers to queues; `heap` is what they point to. -/
structure St where
  tree : BTree.Tree Key Nat
  heap : List MemQueue
  lim : State Key
  /-- limiterRuleID -/
  rule : Nat

/-- What a client of willow observes. -/
inductive Out
  | ok
  /-- 404 -/
  | notFound
  /-- 409 -/
  | conflict
  /-- 500 -/
  | internal
  /-- name and MaxItems of one queue -/
  | one (q : GoString × Int)
  /-- of all queues -/
  | all (l : List (GoString × Int))
deriving DecidableEq, Repr

/-- The type restriction of every lookup by name (queues_client_local.go:140, 168, ...). -/
def strOnly : TypeRestrictions := ⟨DataType.string, DataType.string⟩

/-- pkg/clients/limiter_client (`CreateOverride`, `UpdateOverride`): limits below -1 do not pass the validation of
pkg/models/api/limiter/v1/override.go:92-100, and the request can fail. -/
def sendable (up : Bool) (max : Int) : Bool := up && decide (-1 ≤ max)

/-- queues/memory/memory_queue.go:31-62 `New`: the limiter afterwards and whether there is a queue. -/
def memNew (s : St) (name : GoString) (max : Int) (up : Bool) : Option (State Key × Bool) :=
  if sendable up max then
    match createOverride s.lim s.rule (overrideKVs name) max with
    | none => none
    | some (lim', .created _) => some (lim', true)
    | some (lim', _) => some (lim', false)
  else some (s.lim, false)

/-- queues_client_local.go:57-65: what the callback of `Create` returns, the pointer to the new queue or nil. -/
def newRef (s : St) (r : Option (State Key × Bool)) : Option Nat :=
  match r with
  | some (_, true) => some s.heap.length
  | _ => none

/-- queues_client_local.go:53-82 `CreateQueue`. -/
def createQueue (s : St) (name : GoString) (max : Int) (up : Bool) : Option (St × Out) :=
  let r := memNew s name max up
  match s.tree.create (vString name) (newRef s r) with
  | none => none
  | some (t, .found _) => some ({ s with tree := t }, .conflict)
  | some (t, .created) =>
    match r with
    | none => none
    | some (lim', true) => some ({ s with tree := t, heap := s.heap ++ [⟨max, name⟩], lim := lim' }, .ok)
    | some (lim', false) => some ({ s with tree := t, lim := lim' }, .internal)

/-- The pointer of the named queue: `queues.Find` with a callback that keeps the item (queues_client_local.go:121-140). -/
def findRef (s : St) (name : GoString) : Option (Option Nat) :=
  s.tree.find (vString name) strOnly (fun _ _ r => (some r, false)) none

/-- queues_client_local.go:116-157 `GetQueue`. -/
def getQueue (s : St) (name : GoString) : Option (St × Out) :=
  match findRef s name with
  | none => none
  | some none => some (s, .notFound)
  | some (some r) => (s.heap[r]?).map (fun q => (s, .one (name, q.limit)))

/-- `key.Data.(string)` (queues_client_local.go:94). -/
def nameOf (k : Key) : Option GoString := match k.1.data with | .string n => some n | _ => none

/-- What `ListQueues` says about a stored item (queues_client_local.go:88-107). -/
def listed (heap : List MemQueue) (kr : Key × Nat) : Option (GoString × Int) :=
  match nameOf kr.1, heap[kr.2]? with
  | some n, some q => some (n, q.limit)
  | _, _ => none

/-- queues_client_local.go:84-114 `ListQueues`. -/
def listQueues (s : St) : Option (St × Out) :=
  match s.tree.find KeyOps.any ⟨DataType.min, DataType.max⟩ (fun l k r => (l ++ [(k, r)], true)) [] with
  | none => none
  | some l => (l.mapM (listed s.heap)).map (fun l => (s, .all l))

/-- The comparison `= v` on a string (memory_queue.go:76-91). -/
def isString (v : GoString) : ValueQuery Key := ⟨vString v, .eq, strOnly⟩

/-- memory_queue.go:73-96: the query of `Update`. -/
def updateQuery (name : GoString) : Query Key :=
  .mk (some { ids := [], kvs := [(pre ++ sQueueName, isString name), (pre ++ sEnqueued, isString sTrue)], min := some 2, max := some 2 }) [] [] true

/-- memory_queue.go:119-140: the query of `Destroy`. -/
def destroyQuery (name : GoString) : Query Key :=
  .mk (some { ids := [], kvs := [(pre ++ sQueueName, isString name), (pre ++ sEnqueued, isString sTrue)], min := none, max := none }) [] [] true

/-- memory_queue.go:97-102 and 141-146: the id of the only override that satisfies the query; anything else is a panic.  `upQ` tells
whether the limiter can be reached. -/
def onlyOverride (s : St) (q : Query Key) (upQ : Bool) : Option Nat :=
  if upQ then
    match queryOverrides s.lim s.rule q with
    | some (some [o]) => some o.manyID
    | _ => none
  else none

/-- memory_queue.go:68-114 `Update` of the queue `r` points to. -/
def memUpdate (s : St) (r : Nat) (max : Int) (upQ up : Bool) : Option (St × Out) :=
  match s.heap[r]? with
  | none => none
  | some q =>
    let s1 := { s with heap := s.heap.set r { q with limit := max } }
    match onlyOverride s1 (updateQuery q.name) upQ with
    | none => none
    | some id =>
      if sendable up max then
        match updateOverride s1.lim s1.rule id max with
        | none => none
        | some (lim', .ok) => some ({ s1 with lim := lim' }, .ok)
        | some (lim', _) => some ({ s1 with lim := lim' }, .internal)
      else some (s1, .internal)

/-- queues_client_local.go:159-180 `UpdateQueue`. -/
def updateQueue (s : St) (name : GoString) (max : Int) (upQ up : Bool) : Option (St × Out) :=
  match findRef s name with
  | none => none
  | some none => some (s, .notFound)
  | some (some r) => memUpdate s r max upQ up

/-- memory_queue.go:116-156 `Destroy` of the queue `r` points to: the limiter afterwards and whether it succeeded. -/
def memDestroy (s : St) (r : Nat) (upQ up : Bool) : Option (State Key × Bool) :=
  match s.heap[r]? with
  | none => none
  | some q =>
    match onlyOverride s (destroyQuery q.name) upQ with
    | none => none
    | some id =>
      if up then
        match deleteOverride s.lim s.rule id with
        | none => none
        | some (lim', .ok) => some (lim', true)
        | some (lim', _) => some (lim', false)
      else some (s.lim, false)

/-- queues_client_local.go:186-195: whether the queue may be removed from the tree. -/
def destroyed (r : Option (State Key × Bool)) : Bool :=
  match r with
  | some (_, true) => true
  | _ => false

/-- queues_client_local.go:182-209 `DeleteQueue`. -/
def deleteQueue (s : St) (name : GoString) (upQ up : Bool) : Option (St × Out) :=
  match s.tree.delete (vString name) (fun kv => destroyed (memDestroy s kv.2 upQ up)) with
  | none => none
  | some (t, none) => some ({ s with tree := t }, .ok)
  | some (t, some kv) =>
    match memDestroy s kv.2 upQ up with
    | none => none
    | some (lim', true) => some ({ s with tree := t, lim := lim' }, .ok)
    | some (lim', false) => some ({ s with tree := t, lim := lim' }, .internal)

/-- A request to willow, or anything another user asks of the limiter.  `up` tells whether the limiter answers the last request willow
sends to it, `upQ` the same for the query before it. -/
inductive Req
  | create (name : GoString) (max : Int) (up : Bool)
  | get (name : GoString)
  | list
  | update (name : GoString) (max : Int) (upQ up : Bool)
  | delete (name : GoString) (upQ up : Bool)
  | other (op : Limiter.Op Key)

/-- One request (the functions cited above). -/
def step (s : St) : Req → Option (St × Out)
  | .create n m up => createQueue s n m up
  | .get n => getQueue s n
  | .list => listQueues s
  | .update n m upQ up => updateQueue s n m upQ up
  | .delete n upQ up => deleteQueue s n upQ up
  | .other op => (Limiter.step s.lim op).map (fun r => ({ s with lim := r.1 }, .ok))

/-- A history of requests. -/
def run (s : St) : List Req → Option (St × List Out)
  | [] => some (s, [])
  | r :: rs => match step s r with
    | none => none
    | some (s', o) => match run s' rs with
      | none => none
      | some (s'', os) => some (s'', o :: os)

/-- willow starts on a limiter: it creates the rule for all queues with limit 0 (cmd/willow/main.go:72-88, queues_client_local.go:38-50);
an error answer ends the process. -/
def start (lim : State Key) : Option St :=
  match BTree.newTree Key Nat 2, Limiter.createRule lim ruleKVs 0 with
  | some t, some (lim', .created id) => some ⟨t, [], lim', id⟩
  | _, _ => none

end Willow.Queues
