/-
Model of the locks around one item that was handed out: internal/willow/brokers/queue_channels/memory/memory_queue_channel.go (ACK,
failItem, Heartbeat, and the callbacks of a dequeue), memory_queue_channel_item.go and internal/heartbeater/heartbeater.go, from the
creation of the item's heartbeater to its end.

Any number of calls with the id of the item.  Each one takes up to three locks, in this order, and keeps them until it returns:
* `itemsLock` of the channel,
* the lock of the B-tree node that holds the item, inside `items.Delete` (writer) or `items.Find` (reader),
* `heartbeatLock` of the item.
It then talks to the heartbeat process, and that can block.

Simplifications: returning releases all locks in one step (nothing blocks there); the other locks of the B-tree (the tree, the nodes
above) are left out, as they are released before or are taken by everybody in the same order; Go's RWMutex also lets a waiting writer
keep out new readers: left out, so more steps are possible here.  A second hand-out of the item has a new heartbeater and is not part of this.
-/
namespace Willow.ChanLocks

/-- The calls. -/
inductive Kind
  /-- memory_queue_channel.go:426-461 -/
  | passed
  /-- 462-466, 471-573 -/
  | failed
  /-- 749-769 -/
  | beat
  /-- the success callback, 667-692 -/
  | success
  /-- the failure callback, 695-747 -/
  | unsent
  /-- the timeout callback, 643-648 and 471-573, run by the heartbeat process itself (heartbeater.go:104) -/
  | timeout
deriving DecidableEq, Repr

/-- Does the call take `itemsLock`? (474, 704) -/
def Kind.items : Kind → Bool
  | .failed | .unsent | .timeout => true
  | _ => false

/-- Does it write-lock the node? (`Delete`: 458, 542, 740; `Find`: 685, 763) -/
def Kind.writes : Kind → Bool
  | .passed | .failed | .unsent | .timeout => true
  | .beat | .success => false

/-- Where a call is. -/
inductive At
  | new
  /-- it has `itemsLock` -/
  | items
  /-- it has the node (and `itemsLock`, if it takes it) -/
  | node
  /-- it has all its locks -/
  | hb
  | answered
deriving DecidableEq, Repr

structure Call where
  kind : Kind
  at_ : At := .new
deriving DecidableEq, Repr

/-- Does the call hold the lock? -/
def Call.holdsItems (c : Call) : Bool := c.kind.items && (c.at_ == .items || c.at_ == .node || c.at_ == .hb)
def Call.holdsNode (c : Call) : Bool := c.at_ == .node || c.at_ == .hb
def Call.holdsHb (c : Call) : Bool := c.at_ == .hb

/-- Where the heartbeat process is (heartbeater.go:77-113). -/
inductive Phase
  | waitStart
  | running
  | inTimeout
  | done
deriving DecidableEq, Repr

structure St where
  phase : Phase := .waitStart
  /-- `heartbeatProcess` is not nil -/
  ptr : Bool := true
  calls : List Call := []
deriving Repr

/-- What the call does under all its locks, if it returns (none: it blocks). -/
def finish (s : St) : Kind → Option (Phase × Bool)
  -- memory_queue_channel_item.go:77-88 and heartbeater.go:123-132
  | .passed | .failed | .unsent =>
    if s.ptr then match s.phase with
      | .waitStart | .running | .done => some (.done, false)
      | .inTimeout => none
    else some (s.phase, false)
  -- memory_queue_channel_item.go:90-99 and heartbeater.go:152-161
  | .beat =>
    if s.ptr then match s.phase with
      | .running | .done => some (s.phase, true)
      | .waitStart | .inTimeout => none
    else some (s.phase, false)
  -- memory_queue_channel_item.go:66-75 and heartbeater.go:135-146: a second Start does not block
  | .success => if s.ptr && s.phase == .waitStart then some (.running, true) else some (s.phase, s.ptr)
  -- memory_queue_channel_item.go:59-64; the heartbeat process ends when the callback returns
  | .timeout => some (.done, false)

/-- The step a call takes next: take a lock or return. -/
def advance (s : St) (others : List Call) (c : Call) : Option (St × Call) :=
  match c.at_ with
  | .new =>
    if c.kind.items then
      if others.any (·.holdsItems) then none else some (s, { c with at_ := .items })
    else if others.any (fun o => o.holdsNode && (c.kind.writes || o.kind.writes)) then none
    else some (s, { c with at_ := .node })
  | .items =>
    if others.any (fun o => o.holdsNode && (c.kind.writes || o.kind.writes)) then none else some (s, { c with at_ := .node })
  | .node => if others.any (·.holdsHb) then none else some (s, { c with at_ := .hb })
  | .hb => match finish s c.kind with
    | none => none
    | some (p, b) => some ({ s with phase := p, ptr := b }, { c with at_ := .answered })
  | .answered => none

/-- Steps. -/
inductive Step : St → St → Prop
  /-- a client calls, or one of the two callbacks of the dequeue is called -/
  | call {s} (k : Kind) : k ≠ .timeout → Step s { s with calls := s.calls ++ [⟨k, .new⟩] }
  /-- heartbeater.go:102-104: the timeout callback is called -/
  | fire {s} : s.phase = .running → Step s { s with phase := .inTimeout, calls := s.calls ++ [⟨.timeout, .new⟩] }
  /-- a call goes on -/
  | go {s s' a b c c'} : s.calls = a ++ c :: b → advance s (a ++ b) c = some (s', c') → Step s { s' with calls := a ++ c' :: b }

/-- Any number of steps. -/
inductive Run : St → St → Prop
  | refl {s} : Run s s
  | tail {s s' s''} : Run s s' → Step s' s'' → Run s s''

/-- Reachable from the moment the heartbeater is created. -/
def Reach (s : St) : Prop := Run {} s

end Willow.ChanLocks
