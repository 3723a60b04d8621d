import Verif.Model.Queues
import Verif.Model.OneToMany
/-
The requests to willow as its handlers see them: the decoded bodies with their nil pointers, the validators, and what happens in the code
that runs after validation, one request at a time.  The point is where requests crash.

Simplifications:
* A body is decoded JSON.  A value that fails EncapsulatedValue.Validate is `none`; NaN values are left out.  A query or item with a value of
  that kind is rejected by validation, so `none` stands for bodies that cannot be decoded or have such a value.
* A channel is the list of the timeouts of its waiting items; updates of the last item keep its timeout (memory_queue_channel.go:360-368, 392-404,
  C62) and are left out, as are retries: these items have been started before.
* What the channel answers to an ack or heartbeat (Model/Channel.lean) is a parameter of the request, as is whether the limiter admits a
  counter update or can be reached.
* Requests run one after the other.  A consumer that finds nothing is answered when its client gives up.
* net/http recovers a panic in the goroutine of a request: that request gets no answer (`panicked`).  Other panics and logger.Fatal end the
  process (`died`).
* The names in URLs are not empty.
-/
namespace Willow.Requests
open Willow Willow.Assoc Willow.Spec Willow.Limiter Willow.Queue Willow.Queues

/-! ### Bodies and validation -/

/-- Decoded datatypes.KeyValues (pkg/models/datatypes/map_string_encapsulated_value.go:11, 54-81). -/
abbrev RawKVs := List (GoString × Option Key)

/-- map_string_encapsulated_value.go:40-52 `Validate(MinDataType, max)`, with `max` = MaxDataType (`anyOk`) or MaxWithoutAnyDataType. -/
def validValue (anyOk : Bool) : Option Key → Bool
  | none => false
  | some k => decide (KeyOps.typ k ≤ if anyOk then DataType.max else DataType.maxWithoutAny)
/-- map_string_encapsulated_value.go:40-52 `Validate`. -/
def validKVs (anyOk : Bool) (kvs : RawKVs) : Bool := !kvs.isEmpty && kvs.all (fun kv => validValue anyOk kv.2)
/-- The key-values as the trees see them. -/
def kvsOf (kvs : RawKVs) : KVs Key := kvs.filterMap (fun kv => kv.2.map (fun k => (kv.1, k)))

/-- pkg/models/api/willow/v1/queue.go:102-106. -/
structure QueueProps where
  maxItems : Option Int
/-- queue.go:108-114 `Validate`. -/
def QueueProps.validate (p : QueueProps) : Bool := p.maxItems.isSome
/-- queue.go:57-65, 85-88; the outer option of `name` is DBDefinition. -/
structure QueueSpec where
  name : Option (Option GoString)
  props : Option QueueProps
/-- queue.go:67-83, 90-100 `Validate`. -/
def QueueSpec.validate (s : QueueSpec) : Bool :=
  (match s.name with | some (some n) => !n.isEmpty | _ => false) && (match s.props with | some p => p.validate | none => true)
/-- queue.go:9-15; `state` = the field State is not null. -/
structure QueueBody where
  spec : Option QueueSpec
  state : Bool
/-- queue.go:41-55 `ValidateSpecOnly`. -/
def QueueBody.validateSpecOnly (b : QueueBody) : Bool := (match b.spec with | some s => s.validate | none => false) && !b.state

/-- pkg/models/api/willow/v1/item.go:99-114; `data` is the number of bytes. -/
structure ItemProps where
  data : Nat
  updateable : Option Bool
  retryAttempts : Option Nat
  retryPosition : Option GoString
  timeout : Option Int
/-- "front" -/
def sFront : GoString := str ['f', 'r', 'o', 'n', 't']
/-- "back" -/
def sBack : GoString := str ['b', 'a', 'c', 'k']
/-- item.go:116-145 `Validate`. -/
def ItemProps.validate (p : ItemProps) : Bool :=
  !(p.data == 0) && p.updateable.isSome && p.retryAttempts.isSome && (p.retryPosition == some sFront || p.retryPosition == some sBack) && p.timeout.isSome
/-- item.go:11-17, 59-65, 87-89; DBDefinition, Properties. -/
structure ItemBody where
  spec : Option (Option RawKVs × Option ItemProps)
  state : Bool
/-- item.go:43-57, 67-97 `ValidateSpecOnly`. -/
def ItemBody.validateSpecOnly (b : ItemBody) : Bool :=
  (match b.spec with
   | some (some kvs, some p) => validKVs false kvs && p.validate
   | _ => false) && !b.state

/-- pkg/models/api/willow/v1/item_ack.go:10-19, item_heartbeat.go:10-16. -/
structure ItemRef where
  id : GoString
  kvs : RawKVs
/-- item_ack.go:25-35, item_heartbeat.go:22-32 `Validate`. -/
def ItemRef.validate (r : ItemRef) : Bool := !r.id.isEmpty && validKVs false r.kvs

/-- value_query.go:25-46 `Validate`. -/
def validVQ (q : ValueQuery Key) : Bool :=
  (match q.cmp with
   | .eq | .ne => true
   | _ => decide (KeyOps.typ q.value ≤ DataType.maxWithoutAny)) && q.tr.validate
/-- selection.go:55-59. -/
def validBounds (min max : Option Int) : Bool := match min, max with | some a, some b => !decide (b < a) | _, _ => true
/-- selection.go:43-62 `Validate`. -/
def validSel (s : Selection Key) : Bool :=
  !(s.ids.isEmpty && s.kvs.isEmpty && s.min.isNone && s.max.isNone) && s.kvs.all (fun kq => validVQ kq.2) && validBounds s.min s.max
mutual
/-- associated_action_query.go:30-64 `Validate`. -/
def validQuery : Query Key → Bool
  | .mk sel or and _ => (match sel with | some s => validSel s | none => true) && validQueries or && validQueries and
/-- The loops over Or and And. -/
def validQueries : List (Query Key) → Bool
  | [] => true
  | q :: qs => validQuery q && validQueries qs
end

/-! ### The service -/

/-- queueClientLocal with its queues, and queueChannelsClientLocal with its channels: the tree stores pointers to channels, `heap` is what they
point to. -/
structure St where
  q : Queues.St
  chans : OTM.Tree Key Nat
  heap : List (List Int)

/-- What happens to a request. -/
inductive Reply
  | answer (o : Out)
  /-- 400 -/
  | rejected
  /-- 200 with an item or with channels -/
  | item (timeout : Int)
  | channels (n : Nat)
  /-- the goroutine of the request panics -/
  | panicked
  /-- the process ends -/
  | died
deriving DecidableEq, Repr

/-- The answer of a channel to an ack: `okEmpty` = done, and no item is left; `limiterFailed` = the counters could not be updated. -/
inductive AckRes
  | notFound | ok | okEmpty | limiterFailed
deriving DecidableEq, Repr

/-- internal/willow/api/v1/router/willow_url_router.go:19-53.  `none` bodies cannot be decoded. -/
inductive Req
  | create (b : Option QueueBody) (up : Bool)
  | list
  | get (n : GoString)
  | update (n : GoString) (b : Option QueueProps) (upQ up : Bool)
  /-- `upC`: the limiter can be reached when the channels are destroyed -/
  | delete (n : GoString) (upC upQ up : Bool)
  | channelQuery (n : GoString) (q : Option (Query Key))
  /-- the key-values decoded so far, and whether the body was decoded to its end -/
  | channelDelete (n : GoString) (kvs : RawKVs) (complete : Bool) (up : Bool)
  /-- `admit`: the limiter admits the item -/
  | enqueue (n : GoString) (b : Option ItemBody) (admit : Bool)
  /-- `pick`: which of the matching channels is read from first; `admit`: the limiter lets it run -/
  | dequeue (n : GoString) (q : Option (Query Key)) (pick : Nat) (admit : Bool)
  | ack (n : GoString) (b : Option ItemRef) (res : AckRes)
  | heartbeat (n : GoString) (b : Option ItemRef) (found : Bool)
  /-- somebody else uses the limiter -/
  | other (op : Limiter.Op Key)

/-- A request served by queues_client_local.go alone (Model/Queues.lean). -/
def queueReq (s : St) (r : Queues.Req) : Option St × Reply :=
  match Queues.step s.q r with
  | none => (none, .panicked)
  | some (q, o) => (some { s with q := q }, .answer o)

/-- queues_client_local.go:53-82 `CreateQueue` without properties: `*queue.Spec.Properties.MaxItems` (memory_queue.go:35) panics inside the
callback of the B-tree, after the shift of the values (btree/threadsafe_create.go:278-281), as for a callback that returns nil; all
locks are released by deferred functions (threadsafe_create.go:44-46, 81-83). -/
def createNoProps (s : St) (n : GoString) : Option St × Reply :=
  match s.q.tree.create (vString n) none with
  | none => (none, .panicked)
  | some (t, .found _) => (some { s with q := { s.q with tree := t } }, .answer .conflict)
  | some (t, .created) => (some { s with q := { s.q with tree := t } }, .panicked)

/-- queue_handler.go:14-35 `Create`. -/
def create (s : St) (b : Option QueueBody) (up : Bool) : Option St × Reply :=
  match b with
  | none => (some s, .rejected)
  | some b =>
    if b.validateSpecOnly then
      match b.spec with
      | some ⟨some (some n), some ⟨some m⟩⟩ => queueReq s (.create n m up)
      | some ⟨some (some n), none⟩ => createNoProps s n
      | _ => (some s, .panicked)
    else (some s, .rejected)

/-- queue_handler.go:73-93 `Update`. -/
def update (s : St) (n : GoString) (b : Option QueueProps) (upQ up : Bool) : Option St × Reply :=
  match b with
  | none => (some s, .rejected)
  | some p =>
    if p.validate then
      match p.maxItems with
      | some m => queueReq s (.update n m upQ up)
      | none => (some s, .panicked)
    else (some s, .rejected)

/-- Run `f` if the queue exists, else 404: `queues.Find` as a guard (queues_client_local.go:234-271, 273-288, 290-336). -/
def onQueue (s : St) (n : GoString) (missing : Reply) (f : Option St × Reply) : Option St × Reply :=
  match findRef s.q n with
  | none => (none, .panicked)
  | some none => (some s, missing)
  | some (some _) => f

/-- queue_channels_client_local.go:85-106 `DestroyChannelsForQueue`, memory_queue_channel.go:110-140 `ForceDelete`: if the limiter cannot be
reached the process ends (118, 122), unless there is no channel. -/
def destroyChannels (s : St) (n : GoString) (upC : Bool) : Option (OTM.Tree Key Nat) × Reply :=
  match OTM.rel s.chans n with
  | none => (some s.chans, .answer .ok)
  | some t =>
    if upC || t.items.isEmpty then
      match OTM.destroyOne s.chans n none id with
      | none => (none, .panicked)
      | some (c, _) => (some c, .answer .ok)
    else (none, .died)

/-- queues_client_local.go:186-195: the callback of `DeleteQueue`: first the channels, then the override at the limiter. -/
def deleteFound (s : St) (n : GoString) (upC upQ up : Bool) : Option St × Reply :=
  match destroyChannels s n upC with
  | (some c, _) => queueReq { s with chans := c } (.delete n upQ up)
  | (none, r) => (none, r)
/-- queue_handler.go:95-108 `Delete`, queues_client_local.go:182-209 `DeleteQueue`. -/
def delete (s : St) (n : GoString) (upC upQ up : Bool) : Option St × Reply := onQueue s n (.answer .ok) (deleteFound s n upC upQ up)

/-- queue_channels_client_local.go:379-410 `Channels`. -/
def queryFound (s : St) (n : GoString) (q : Query Key) : Option St × Reply :=
  match OTM.query s.chans n q with
  | none => (none, .panicked)
  | some (_, .visited l) => (some s, .channels l.length)
  | some _ => (none, .died)
/-- channel_handler.go:17-39 `ChannelQuery`, queues_client_local.go:211-231. -/
def channelQuery (s : St) (n : GoString) (q : Option (Query Key)) : Option St × Reply :=
  match q with
  | none => (some s, .rejected)
  | some q => if validQuery q then onQueue s n (.channels 0) (queryFound s n q) else (some s, .rejected)

/-- queue_channels_client_local.go:108-130 `DeleteChannel`, btree_one_to_many/threadsafe_delete.go:22-69: the key-values are validated with
MaxDataType, an error ends the process (queue_channels_client_local.go:125); a channel that exists is deleted by force. -/
def deleteChannel (s : St) (n : GoString) (kvs : RawKVs) (up : Bool) (done : Reply) : Option St × Reply :=
  if validKVs true kvs then
    match OTM.deleteByKeyValues s.chans n (kvsOf kvs) (some (fun _ => true)) with
    | none => (none, .panicked)
    | some (c, .deleted (some _)) => if up then (some { s with chans := c }, done) else (none, .died)
    | some (c, .deleted none) => (some { s with chans := c }, done)
    | some _ => (none, .died)
  else (none, .died)

/-- channel_handler.go:42-65 `ChannelDelete`: the answer 400 is written if decoding or validation fails, but the handler goes on (51-54, 56-59
have no return). -/
def channelDelete (s : St) (n : GoString) (kvs : RawKVs) (complete : Bool) (up : Bool) : Option St × Reply :=
  let ok := complete && validKVs false kvs
  onQueue s n (if ok then .answer .notFound else .rejected) (deleteChannel s n kvs up (if ok then .answer .ok else .rejected))

/-- queue_channels_client_local.go:152-197 `EnqueueQueueItem`: an error of CreateOrFind (reserved key) answers 500. -/
def enqueueFound (s : St) (n : GoString) (kvs : RawKVs) (timeout : Int) (admit : Bool) : Option St × Reply :=
  match OTM.createOrFind s.chans n (kvsOf kvs) (if admit then some s.heap.length else none) with
  | none => (none, .panicked)
  | some (c, .created _) => (some { s with chans := c, heap := s.heap ++ [[timeout]] }, .answer .ok)
  | some (c, .found i) =>
    if admit then (some { s with chans := c, heap := s.heap.set i.value (s.heap.getD i.value [] ++ [timeout]) }, .answer .ok)
    else (some { s with chans := c }, .answer .conflict)
  | some (c, .failed) => (some { s with chans := c }, .answer .conflict)
  | some (c, _) => (some { s with chans := c }, .answer .internal)
/-- item_handler.go:14-34 `ChannelEnqueue`. -/
def enqueue (s : St) (n : GoString) (b : Option ItemBody) (admit : Bool) : Option St × Reply :=
  match b with
  | none => (some s, .rejected)
  | some b =>
    if b.validateSpecOnly then
      match b.spec with
      | some (some kvs, some ⟨_, _, _, _, some timeout⟩) => onQueue s n (.answer .notFound) (enqueueFound s n kvs timeout admit)
      | _ => (some s, .panicked)
    else (some s, .rejected)

/-- The channels among `l` that have an item (memory_queue_channel.go:163-175: only these offer one). -/
def offers (heap : List (List Int)) (l : List (OTM.OItem Key Nat)) : List (Nat × Int × List Int) :=
  l.filterMap (fun i => match heap.getD i.value [] with | [] => none | t :: ts => some (i.value, t, ts))

/-- queue_channels_client_local.go:213-278 `DequeueQueueItem`: the query runs in a goroutine of its own (229-251), so its
panic ends the process; so does the panic of time.NewTicker in the heartbeater of the item (internal/heartbeater/heartbeater.go:47-70), which
is started after the item was sent (item_handler.go:67). -/
def dequeueFound (s : St) (n : GoString) (q : Query Key) (pick : Nat) (admit : Bool) : Option St × Reply :=
  match OTM.query s.chans n q with
  | some (_, .visited l) =>
    match (offers s.heap l)[pick]?, admit with
    | some (r, t, ts), true => if t ≤ 0 then (none, .died) else (some { s with heap := s.heap.set r ts }, .item t)
    | _, _ => (some s, .answer .conflict)
  | _ => (none, .died)
/-- item_handler.go:36-62 `ChannelDequeue`. -/
def dequeue (s : St) (n : GoString) (q : Option (Query Key)) (pick : Nat) (admit : Bool) : Option St × Reply :=
  match q with
  | none => (some s, .rejected)
  | some q => if validQuery q then onQueue s n (.answer .notFound) (dequeueFound s n q pick admit) else (some s, .rejected)

/-- queue_channels_client_local.go:281-318 `ACK`. -/
def ackFound (s : St) (n : GoString) (kvs : RawKVs) (res : AckRes) : Option St × Reply :=
  match OTM.query s.chans n (exactQuery (kvsOf kvs)) with
  | none => (none, .panicked)
  | some (_, .visited []) => (some s, .answer .notFound)
  | some (_, .visited _) =>
    match res with
    | .notFound => (some s, .answer .notFound)
    | .ok => (some s, .answer .ok)
    | .okEmpty =>
      match OTM.deleteByKeyValues s.chans n (kvsOf kvs) (some (fun i => (s.heap.getD i.value []).isEmpty)) with
      | none => (none, .panicked)
      | some (c, .deleted _) => (some { s with chans := c }, .answer .ok)
      | some _ => (none, .died)
    | .limiterFailed => (none, .panicked)
  | some _ => (none, .panicked)
/-- item_handler.go:64-84 `ItemACK`. -/
def ack (s : St) (n : GoString) (b : Option ItemRef) (res : AckRes) : Option St × Reply :=
  match b with
  | none => (some s, .rejected)
  | some b => if b.validate then onQueue s n (.answer .notFound) (ackFound s n b.kvs res) else (some s, .rejected)

/-- queue_channels_client_local.go:321-340 `Heartbeat`. -/
def heartbeatFound (s : St) (n : GoString) (kvs : RawKVs) (found : Bool) : Option St × Reply :=
  match OTM.query s.chans n (exactQuery (kvsOf kvs)) with
  | some (_, .visited l) => (some s, .answer (if !l.isEmpty && found then .ok else .notFound))
  | _ => (none, .panicked)
/-- item_handler.go:86-106 `ItemHeartbeat`. -/
def heartbeat (s : St) (n : GoString) (b : Option ItemRef) (found : Bool) : Option St × Reply :=
  match b with
  | none => (some s, .rejected)
  | some b => if b.validate then onQueue s n (.answer .notFound) (heartbeatFound s n b.kvs found) else (some s, .rejected)

/-- One request (the functions cited above).  The state is `none` if the process ended, or if the panic left locks behind. -/
def handle (s : St) : Req → Option St × Reply
  | .create b up => create s b up
  | .list => queueReq s .list
  | .get n => queueReq s (.get n)
  | .update n b upQ up => update s n b upQ up
  | .delete n upC upQ up => delete s n upC upQ up
  | .channelQuery n q => channelQuery s n q
  | .channelDelete n kvs complete up => channelDelete s n kvs complete up
  | .enqueue n b admit => enqueue s n b admit
  | .dequeue n q pick admit => dequeue s n q pick admit
  | .ack n b res => ack s n b res
  | .heartbeat n b found => heartbeat s n b found
  | .other op => queueReq s (.other op)

/-- A history: the replies up to the first after which the state is not known, and the state. -/
def run (s : St) : List Req → Option St × List Reply
  | [] => (some s, [])
  | r :: rs => match handle s r with
    | (none, o) => (none, [o])
    | (some s', o) => ((run s' rs).1, o :: (run s' rs).2)

/-- cmd/willow/main.go:62-109: willow starts with no queues and no channels. -/
def start (lim : State Key) : Option St := (Queues.start lim).map (fun q => ⟨q, [], []⟩)

end Willow.Requests
