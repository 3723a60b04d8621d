/-
Model of one queue channel of willow while the service is told to stop, as a transition system:
internal/willow/brokers/queue_channels/memory/memory_queue_channel.go (`Execute`, the callbacks of a dequeue and the calls with the id of
an item), internal/heartbeater/heartbeater.go, and of internal/willow/brokers/queue_channels/queue_channels_client_local.go the
consumers that wait (`DequeueQueueItem`) and what stops them (`Execute`).

Simplifications:
* Items are known by the heartbeat process they got when they were handed out; what is in the queue is the subject of Model/Channel.lean.
* A call with the id of an item (an ACK, a heartbeat, the stop of an item by `ForceDelete`) takes its locks and talks to the heartbeat
  process in one step.  If the process does not answer, the call keeps its locks and waits; Model/ChannelLocks.lean has the single
  steps, and C60 proves that such a call waits for ever.
* github.com/DanLavine/goasync (not in /repo): a manager whose context is done refuses new tasks from some moment on, and its `Run` returns
  when all tasks it accepted have returned.
* github.com/DanLavine/channelops (not in /repo): a dequeue function that was read from the channel is called.
* The limiter answers (that it does not is C92), clients read what is sent to them, and timeouts are positive.
-/
namespace Willow.ChanStop

/-- Where `Execute` and the client it sent the dequeue function to are (memory_queue_channel.go:143-338, 590-747). -/
inductive Exec
  /-- the first select (155-165) -/
  | idle
  /-- the second select (167-176) -/
  | offering
  /-- waiting for the answer (179); the limiter was not asked yet (594) -/
  | called
  /-- the limiter counted the item (594-603); the first id is not taken yet -/
  | counted
  /-- the id is taken (606-609); the item is not looked up yet -/
  | popped
  /-- the item is being sent to the client, with this heartbeat process if one was accepted (650-663) -/
  | handed (hb : Option Nat)
  /-- over the limit (183-324) -/
  | spin
  /-- out of the loop, waiting for the heartbeat processes (329-335) -/
  | ending
  /-- returned (337) -/
  | returned
deriving DecidableEq, Repr

/-- Where a heartbeat process is (heartbeater.go:77-113). -/
inductive Hb
  /-- the first select (81-85): it does not look at the context -/
  | waitStart
  /-- the loop (90-112) -/
  | running
  /-- its timeout callback was called (104) and waits for the locks of `failItem` (memory_queue_channel.go:644) -/
  | firing
  /-- the callback tries to delete the channel (647) -/
  | deleting
  /-- returned -/
  | done
deriving DecidableEq, Repr

/-- The manager of the heartbeat processes (memory_queue_channel.go:144-152). -/
inductive Mgr
  | accepts
  | refuses
  /-- `Run` returned -/
  | returned
deriving DecidableEq, Repr

/-- The calls with the id of an item. -/
inductive Kind
  /-- a passed ACK (memory_queue_channel.go:426-461), or `ForceDelete` at this item (127-139) -/
  | passed
  /-- a failed ACK (462-466, 471-573): it holds `itemsLock` -/
  | failed
  /-- 749-769 -/
  | beat
deriving DecidableEq, Repr

/-- A call that waits inside the channel. -/
structure Stuck where
  kind : Kind
  hb : Nat
deriving DecidableEq, Repr

structure St where
  exec : Exec := .idle
  /-- the service was told to stop -/
  down : Bool := false
  /-- deleteChan is closed -/
  deleted : Bool := false
  mgr : Mgr := .accepts
  hbs : List Hb := []
  stuck : List Stuck := []
  /-- consumers whose dequeue waits for this channel -/
  waiting : Nat := 0
  /-- notifications (gonotify) -/
  pending : Nat := 0
  /-- how often the limiter refused a dequeue (for the statements) -/
  refusals : Nat := 0
deriving DecidableEq, Repr

/-- The states of `Execute` in which it looks at its context and at deleteChan (memory_queue_channel.go:155-162, 167-174, 314-321). -/
def Exec.listens : Exec → Bool
  | .idle | .offering | .spin => true
  | _ => false

/-- Is `asyncCtx` done (memory_queue_channel.go:145-146, 161, 173, 320)? -/
def cancelled (s : St) : Bool := s.down || s.exec == .ending || s.exec == .returned

/-- `itemsLock` is held by a call that waits (memory_queue_channel.go:474). -/
def itemsHeld (s : St) : Bool := s.stuck.any (fun c => c.kind == .failed)

/-- The locks of the item are held by a call that waits (memory_queue_channel_item.go:77-99). -/
def itemHeld (s : St) (i : Nat) : Bool := s.stuck.any (fun c => c.hb == i)

/-- heartbeater.go:135-146: Start, if the process waits for it. -/
def Hb.start : Hb → Hb
  | .waitStart => .running
  | h => h

/-- heartbeater.go:123-132: Stop, if the process is there to hear it. -/
def Hb.stop : Hb → Hb
  | .waitStart | .running => .done
  | h => h

/-- Does the call have to wait for the heartbeat process?  `StopHeartbeater` and `Heartbeat` do while the timeout callback has not
unset the process (memory_queue_channel_item.go:59-64, 77-99), `Heartbeat` also before Start (heartbeater.go:152-161). -/
def waits (k : Kind) : Hb → Bool
  | .firing => true
  | .waitStart => k == .beat
  | _ => false

/-- What the call does to the heartbeat process. -/
def effect (k : Kind) (h : Hb) : Hb := if k == .beat then h else h.stop

/-- A call with the id of the item (memory_queue_channel.go:426-466, 749-769): it waits for other calls that wait, or for the heartbeat process. -/
def call (s : St) (k : Kind) (i : Nat) (h : Hb) : St :=
  if itemHeld s i || (k == .failed && itemsHeld s) || waits k h then { s with stuck := s.stuck ++ [⟨k, i⟩] }
  else { s with hbs := s.hbs.set i (effect k h) }

/-- What arrives from outside. -/
inductive Ask : St → St → Prop
  /-- the service is told to stop (cmd/willow/main.go:39-40) -/
  | shutdown {s} : Ask s { s with down := true }
  /-- memory_queue_channel.go:96-116: `Delete` or the first part of `ForceDelete` -/
  | delete {s} : Ask s { s with deleted := true }
  /-- an item is enqueued (341-413) -/
  | enqueue {s} : itemsHeld s = false → Ask s { s with pending := s.pending + 1 }
  /-- a consumer that listens to the channel (queue_channels_client_local.go:213-254) -/
  | consumer {s} : Ask s { s with waiting := s.waiting + 1 }
  /-- a consumer goes away -/
  | gone {s} : 0 < s.waiting → Ask s { s with waiting := s.waiting - 1 }
  /-- an ACK, a heartbeat or the stop of an item -/
  | call {s} (k : Kind) (i : Nat) (h : Hb) : s.hbs[i]? = some h → Ask s (call s k i h)

/-- What happens inside. -/
inductive Work : St → St → Prop
  /-- memory_queue_channel.go:163 -/
  | notified {s} : s.exec = .idle → 0 < s.pending → Work s { s with exec := .offering, pending := s.pending - 1 }
  /-- 175 -/
  | send {s} : s.exec = .offering → 0 < s.waiting → Work s { s with exec := .called, waiting := s.waiting - 1 }
  /-- 594-603, and the consumer goes on waiting (queue_channels_client_local.go:265-266) -/
  | refused {s} : s.exec = .called →
      Work s { s with exec := .spin, pending := s.pending + 1, waiting := s.waiting + 1, refusals := s.refusals + 1 }
  /-- 594 -/
  | count {s} : s.exec = .called → Work s { s with exec := .counted }
  /-- 606-609 -/
  | pop {s} : s.exec = .counted → itemsHeld s = false → Work s { s with exec := .popped }
  /-- 611-650 -/
  | accepted {s} : s.exec = .popped → s.mgr = .accepts → Work s { s with exec := .handed (some s.hbs.length), hbs := s.hbs ++ [.waitStart] }
  /-- 650-654: the manager refused the heartbeat process -/
  | unwatched {s} : s.exec = .popped → s.mgr ≠ .accepts → Work s { s with exec := .handed none }
  /-- the item is not there any more -/
  | missing {s} : s.exec = .popped → Work s { s with exec := .handed none }
  /-- 667-692: the client has the item -/
  | received {s} (i : Nat) (h : Hb) : s.exec = .handed (some i) → s.hbs[i]? = some h → itemHeld s i = false →
      Work s { s with exec := .idle, hbs := s.hbs.set i h.start }
  /-- 695-747: it could not be sent; `n`: it went back to the queue -/
  | unsent {s} (i : Nat) (h : Hb) (n : Bool) : s.exec = .handed (some i) → s.hbs[i]? = some h → itemHeld s i = false → itemsHeld s = false → h ≠ .firing →
      Work s { s with exec := .idle, hbs := s.hbs.set i h.stop, pending := s.pending + n.toNat }
  /-- the same without heartbeat process -/
  | receivedUnwatched {s} : s.exec = .handed none → Work s { s with exec := .idle }
  | unsentUnwatched {s} : s.exec = .handed none → itemsHeld s = false → Work s { s with exec := .idle }
  /-- 309-311 -/
  | again {s} : s.exec = .spin → Work s { s with exec := .idle }
  /-- 156-162, 168-174, 315-321 -/
  | stop {s} : s.exec.listens = true → s.down = true ∨ s.deleted = true → Work s { s with exec := .ending }
  /-- the manager notices that its context is done -/
  | refuses {s} : s.mgr = .accepts → cancelled s = true → Work s { s with mgr := .refuses }
  /-- `Run` returns (149-152) -/
  | drained {s} : s.mgr = .refuses → (∀ h ∈ s.hbs, h = .done) → Work s { s with mgr := .returned }
  /-- 335-337 -/
  | returns {s} : s.exec = .ending → s.mgr = .returned → Work s { s with exec := .returned }
  /-- heartbeater.go:92-98 (the shutdown callback does nothing, memory_queue_channel.go:638-640) -/
  | hbStops {s} (i : Nat) : s.hbs[i]? = some .running → cancelled s = true → Work s { s with hbs := s.hbs.set i .done }
  /-- heartbeater.go:102-104 -/
  | fires {s} (i : Nat) : s.hbs[i]? = some .running → Work s { s with hbs := s.hbs.set i .firing }
  /-- memory_queue_channel.go:644, 471-573; `n`: the item went back to the queue -/
  | fails {s} (i : Nat) (n : Bool) : s.hbs[i]? = some .firing → itemHeld s i = false → itemsHeld s = false →
      Work s { s with hbs := s.hbs.set i .deleting, pending := s.pending + n.toNat }
  /-- 647: the deletion waits for the calls on the channel (queue_channels_client_local.go:133-150, 287-298) -/
  | tried {s} (i : Nat) : s.hbs[i]? = some .deleting → s.stuck = [] → Work s { s with hbs := s.hbs.set i .done }
  /-- queue_channels_client_local.go:74-78, 256-278: waiting consumers are told that the service stops -/
  | closed {s} : s.down = true → 0 < s.waiting → Work s { s with waiting := s.waiting - 1 }

/-- Reachable from a new channel. -/
inductive Reach : St → Prop
  | init : Reach {}
  | ask {s s'} : Reach s → Ask s s' → Reach s'
  | work {s s'} : Reach s → Work s s' → Reach s'

end Willow.ChanStop
