/-
Timed model of one item of a willow queue and the item objects of its consumers
(pkg/clients/willow_client/item.go against internal/willow/brokers/queue_channels/memory/memory_queue_channel.go and
internal/heartbeater/heartbeater.go).

Delivery number `x` is the `x`-th time the item was handed to a consumer, and `cli x` is the item object of that consumer.  Time is
a natural number (nanoseconds); every action takes no time and a clock step can come at any moment.  The tickers are those of Go 1.22
(go.mod).  `T` is the timeout of the item; it is the same for all deliveries (an update keeps it, see C62).

Simplifications: one item; the server is not shut down and the queue is not deleted; a failed item is always put back (an item
without retries left is dropped, then it is never delivered again).
-/
namespace Willow.ItemLease

/-- Answers to a heartbeat as the client tells them apart (item.go:114-138): 200, or anything else; 404 of
memory_queue_channel.go:751 is one of them. -/
inductive Code
  | ok
  | other
deriving DecidableEq, Repr

/-- The heartbeat request of the client's loop (item.go:101). -/
inductive Call
  | idle
  | sent (t : Nat)
  | answered (c : Code) (t : Nat)
deriving DecidableEq, Repr

/-- The item object of a consumer. -/
inductive Phase
  /-- the server wrote the answer to the dequeue request, DequeueQueueItem has not returned -/
  | pending
  /-- DequeueQueueItem returned the item and Done is open -/
  | holding
  /-- Done is closed (item.go:230-234), or DequeueQueueItem failed -/
  | done
  /-- the process panicked: NewTicker with period 0 (item.go:69), or a nil response (item.go:114) -/
  | crashed
deriving DecidableEq, Repr

/-- item.go:63-71: the state of the loop: the next tick, lastHeartbeat, the running request, and the requests that failed for the
client but may still reach the server.  `delivered` is the time of the delivery on the server, `since` the time the loop last came back
to its select. -/
structure Cli where
  phase : Phase
  delivered : Nat
  beat : Nat
  last : Nat
  since : Nat
  call : Call
  lost : Nat
deriving DecidableEq, Repr

/-- item.go:68: timeout - 10%. -/
def adjusted (T : Nat) : Nat := T - T / 10

/-- item.go:69: the period of the heartbeats. -/
def period (T : Nat) : Nat := adjusted T / 3

/-- The clock, the delivery that is being processed on the server, whether its heartbeater was started and if so when its ticker
fires and whether the channel of the ticker holds an old tick (heartbeater.go:81-112), the number of deliveries so far, and their item
objects.  `foreignAck` records that an ACK of one consumer ended the delivery to another. -/
structure St where
  now : Nat
  owner : Option Nat
  started : Bool
  deadline : Nat
  stale : Bool
  next : Nat
  foreignAck : Bool
  cli : Nat → Cli

/-- An item object that does not exist yet. -/
def noCli : Cli := { phase := .done, delivered := 0, beat := 0, last := 0, since := 0, call := .idle, lost := 0 }

/-- The item waits in the queue. -/
def init : St :=
  { now := 0, owner := none, started := false, deadline := 0, stale := false, next := 0, foreignAck := false, cli := fun _ => noCli }

/-- Replace one item object. -/
def St.set (s : St) (x : Nat) (c : Cli) : St := { s with cli := fun y => if y = x then c else s.cli y }

/-- memory_queue_channel.go:605-662, item_handler.go:57: the item is taken from the queue and written to a consumer; its heartbeater
waits to be started. -/
def St.deliver (s : St) : St :=
  { s with
    owner := some s.next
    started := false
    deadline := 0
    stale := false
    next := s.next + 1
    cli := fun y => if y = s.next then
      { phase := .pending, delivered := s.now, beat := 0, last := 0, since := 0, call := .idle, lost := 0 } else s.cli y }

/-- memory_queue_channel.go:749-769, heartbeater.go:107-110: a heartbeat names the item, not the delivery: it resets the ticker
whoever sent it, if the item is being processed. -/
def St.beat (T : Nat) (s : St) : St :=
  if s.owner ≠ none then { s with deadline := s.now + T, stale := s.stale || decide (s.deadline ≤ s.now) } else s

/-- memory_queue_channel.go:751, 756: 200 if the item is being processed, 404 otherwise. -/
def St.code (s : St) : Code := if s.owner ≠ none then .ok else .other

/-- item.go:63-71: the loop starts when the answer to the dequeue arrives. -/
def Cli.start (T : Nat) (c : Cli) (now : Nat) : Cli :=
  if period T = 0 then { c with phase := .crashed }
  else { c with phase := .holding, beat := now + period T, last := now, since := now }

/-- item.go:76-80: a tick after more than the adjusted timeout without an answered heartbeat closes Done; 82-101: otherwise a request
is sent.  The ticker drops the ticks that come while the loop is busy, except one. -/
def Cli.tick (T : Nat) (c : Cli) (now : Nat) : Cli :=
  if adjusted T ≤ now - c.last then { c with phase := .done }
  else { c with call := .sent now, beat := c.beat + period T * ((now - c.beat) / period T + 1) }

/-- item.go:102-111: the request failed and Done is open: `continue`.  The server may still get it. -/
def Cli.fail (c : Cli) (now : Nat) : Cli := { c with call := .idle, since := now, lost := c.lost + 1 }

/-- item.go:114-138: the answer arrives: 200 sets lastHeartbeat, everything else is reported and ignored. -/
def Cli.receive (c : Cli) (code : Code) (now : Nat) : Cli :=
  match code with
  | .ok => { c with call := .idle, since := now, last := now }
  | .other => { c with call := .idle, since := now }

/-- One atomic action.  `hdr`: heartbeat requests have a Content-Type header.  The code is `hdr = false`: item.go:91-100 makes the request without
one, and internal/middleware/encoder.go:10-31 answers 400 to every request without one. -/
inductive Step (hdr : Bool) (T : Nat) : St → St → Prop
  /-- time passes -/
  | wait (s : St) (d : Nat) : Step hdr T s { s with now := s.now + d }
  /-- memory_queue_channel.go:605-662: only when the item waits in the queue -/
  | deliver (s : St) (h : s.owner = none) : Step hdr T s s.deliver
  /-- memory_queue_channel.go:675, heartbeater.go:81-88: the answer was written, the ticker starts -/
  | start (s : St) (x : Nat) (h : s.owner = some x) (hs : s.started = false) :
      Step hdr T s { s with started := true, deadline := s.now + T }
  /-- memory_queue_channel.go:695-745: the answer could not be written: the item goes back -/
  | unstart (s : St) (x : Nat) (h : s.owner = some x) (hs : s.started = false) (hp : (s.cli x).phase = .pending) :
      Step hdr T s ({ s with owner := none }.set x { s.cli x with phase := .done })
  /-- heartbeater.go:102-106, memory_queue_channel.go:641-646: the ticker fires: the item goes back -/
  | expire (s : St) (x : Nat) (h : s.owner = some x) (hs : s.started = true) (ht : s.stale = true ∨ s.deadline ≤ s.now) :
      Step hdr T s { s with owner := none }
  /-- channel.go:88-101: the answer to the dequeue reaches the consumer -/
  | delivered (s : St) (x : Nat) (h : (s.cli x).phase = .pending) : Step hdr T s (s.set x ((s.cli x).start T s.now))
  /-- channel.go:88-91: it does not, DequeueQueueItem fails -/
  | undelivered (s : St) (x : Nat) (h : (s.cli x).phase = .pending) : Step hdr T s (s.set x { s.cli x with phase := .done })
  /-- item.go:76-101 -/
  | tick (s : St) (x : Nat) (h : (s.cli x).phase = .holding) (hi : (s.cli x).call = .idle) (hb : (s.cli x).beat ≤ s.now) :
      Step hdr T s (s.set x ((s.cli x).tick T s.now))
  /-- memory_queue_channel.go:749-769: the server handles the heartbeat; that of a heartbeater that is not started waits for it
  (heartbeater.go:153-158) -/
  | handle (s : St) (x t : Nat) (hc : (s.cli x).call = .sent t) (hs : s.owner = none ∨ s.started = true) (hh : hdr = true) :
      Step hdr T s ((s.beat T).set x { s.cli x with call := .answered s.code t })
  /-- encoder.go:14-21: a heartbeat without the header is answered 400, and has no effect -/
  | reject (s : St) (x t : Nat) (hc : (s.cli x).call = .sent t) (hh : hdr = false) :
      Step hdr T s (s.set x { s.cli x with call := .answered .other t })
  /-- the same, but the client has given the request up -/
  | handleLost (s : St) (x : Nat) (hl : 0 < (s.cli x).lost) (hs : s.owner = none ∨ s.started = true) (hh : hdr = true) :
      Step hdr T s ((s.beat T).set x { s.cli x with lost := (s.cli x).lost - 1 })
  /-- item.go:102-111 -/
  | fail (s : St) (x : Nat) (h : (s.cli x).phase = .holding) (hc : (s.cli x).call ≠ .idle) : Step hdr T s (s.set x ((s.cli x).fail s.now))
  /-- item.go:102-114: the request fails after ACK has closed Done: the nil response is used -/
  | failDone (s : St) (x : Nat) (h : (s.cli x).phase = .done) (hc : (s.cli x).call ≠ .idle) :
      Step hdr T s (s.set x { s.cli x with phase := .crashed })
  /-- item.go:114-138 -/
  | receive (s : St) (x t : Nat) (c : Code) (h : (s.cli x).phase = .holding) (hc : (s.cli x).call = .answered c t) :
      Step hdr T s (s.set x ((s.cli x).receive c s.now))
  /-- item.go:114-138, 73-75: an answer that arrives after ACK: the loop ends -/
  | receiveDone (s : St) (x t : Nat) (c : Code) (h : (s.cli x).phase = .done) (hc : (s.cli x).call = .answered c t) :
      Step hdr T s (s.set x { s.cli x with call := .idle })
  /-- item.go:168-169: ACK closes Done before it sends the request -/
  | ack (s : St) (x : Nat) (h : (s.cli x).phase = .holding) : Step hdr T s (s.set x { s.cli x with phase := .done })
  /-- memory_queue_channel.go:426-573: the server handles an ACK of a consumer whose Done is closed; it names the item, so it ends
  whatever delivery is being processed -/
  | acked (s : St) (x y : Nat) (h : s.owner = some y) (hd : (s.cli x).phase = .done) (hx : x < s.next) :
      Step hdr T s { s with owner := none, foreignAck := s.foreignAck || decide (x ≠ y) }

/-- States that can be reached with every state on the way satisfying `P`. -/
inductive ReachWith (hdr : Bool) (T : Nat) (P : St → Prop) : St → Prop
  | init : ReachWith hdr T P init
  | step {s s' : St} : ReachWith hdr T P s → Step hdr T s s' → P s' → ReachWith hdr T P s'

/-- States that can be reached. -/
def Reach (hdr : Bool) (T : Nat) : St → Prop := ReachWith hdr T (fun _ => True)

/-- Bounds on the delays of one consumer: `D` bounds the time from the delivery to the return of DequeueQueueItem, `R` the time a
heartbeat request takes to return, `E` how long the consumer's goroutine takes to look at a tick when it is not in a request. -/
def CliPrompt (D R E now : Nat) (c : Cli) : Prop :=
  match c.phase, c.call with
  | .pending, _ => now ≤ c.delivered + D
  | .holding, .idle => now ≤ max c.beat c.since + E
  | .holding, .sent t => now ≤ t + R
  | .holding, .answered _ t => now ≤ t + R
  | _, _ => True

/-- The delays of all consumers are bounded. -/
def Prompt (D R E : Nat) (s : St) : Prop := ∀ x, x < s.next → CliPrompt D R E s.now (s.cli x)

/-- Bounded delays of all consumers, no old tick stays in the channel of the server's ticker, and no consumer acknowledges the item
while it is delivered to another one. -/
def Timely (D R E : Nat) (s : St) : Prop := Prompt D R E s ∧ s.stale = false ∧ s.foreignAck = false

end Willow.ItemLease
