/-
Deleting a queue while it is in use: the guard of the tree of queues (internal/willow/brokers/queues/queues_client_local.go) and what runs outside of it
(internal/willow/brokers/queue_channels/queue_channels_client_local.go).

* Every request on a queue runs inside `queues.Find` of its name and keeps a read lock of the queue's node; DeleteQueue runs inside `queues.Destroy`, which records the
  name, then waits for the write lock (btree/threadsafe_destroy.go:18-57).  The locks of one name are modelled; those of the nodes above only make requests wait more (C55).
* DestroyChannelsForQueue records the name in the tree of channels, removes the channels one after the other with two requests to the limiter each, and removes the
  name again (btree_one_to_many/threadsafe_destroy.go:25-59): one step at its beginning, one at its end.
* Items and deliveries of all channels of a queue are counted together.
* `logger.Fatal` ends the process, and so does a panic outside of the goroutine of a request; net/http recovers panics of requests.
-/
namespace Willow.DeleteRace

/-- Requests on a queue. -/
inductive Op where
  /-- queues_client_local.go:234-250 -/
  | enqueue
  /-- queues_client_local.go:252-271 -/
  | dequeue
  /-- queues_client_local.go:290-312 -/
  | ack
  /-- queues_client_local.go:314-336 -/
  | heartbeat
  /-- queues_client_local.go:211-232 -/
  | query
  /-- queues_client_local.go:273-288 -/
  | deleteChannel
  /-- queues_client_local.go:116-157 -/
  | get
  /-- queues_client_local.go:159-180 -/
  | update
deriving DecidableEq, Repr

/-- Goroutines; the number is the queue. -/
inductive Task where
  | request (op : Op) (q : Nat)
  /-- queues_client_local.go:52-82 -/
  | create (q : Nat)
  /-- queues_client_local.go:182-209 -/
  | delete (q : Nat)
  /-- queue_channels_client_local.go:229-251: the goroutine a dequeue starts -/
  | scan (q : Nat)
  /-- memory/memory_queue_channel.go:643-648: nobody sent heartbeats for a delivered item -/
  | timeout (q : Nat)
deriving DecidableEq, Repr

/-- What a client is told. -/
inductive Answer where
  | ok
  /-- 404 -/
  | missing
  /-- 409 -/
  | conflict
  /-- 500, or the connection is closed by a panic -/
  | internal
deriving DecidableEq, Repr

/-- How far a goroutine got. -/
inductive Phase where
  | ready
  /-- the name was not recorded as being destroyed (btree/threadsafe_find.go:34, threadsafe_create.go:38) -/
  | checked
  /-- in the callback of `queues.Find` -/
  | inside
  /-- the name is recorded (btree/threadsafe_destroy.go:33-42) -/
  | marked
  /-- in the callback of `queues.Destroy` (queues_client_local.go:186-195) -/
  | owning
  /-- in DestroyChannelsForQueue: the name is recorded in the tree of channels -/
  | wiping
  | done (a : Answer)
deriving DecidableEq, Repr

/-- A goroutine. -/
structure Proc where
  task : Task
  phase : Phase
deriving DecidableEq, Repr

/-- The service. -/
structure St where
  /-- the queues there are -/
  queues : Nat → Bool
  /-- items waiting in the channels of a queue -/
  items : Nat → Nat
  /-- delivered items of a queue that are not acknowledged -/
  out : Nat → Nat
  procs : List Proc
  /-- the process has ended, and which goroutine ended it -/
  dead : Option Nat

/-- A new service. -/
def St.init : St := ⟨fun _ => false, fun _ => 0, fun _ => 0, [], none⟩

/-- A deletion of this queue has recorded the name (btree/threadsafe_b_tree.go:108-122). -/
def Proc.marks (q : Nat) (p : Proc) : Bool := decide (p.task = .delete q) && (decide (p.phase = .marked) || decide (p.phase = .owning) || decide (p.phase = .wiping))

/-- A deletion of this queue has the write lock. -/
def Proc.owns (q : Nat) (p : Proc) : Bool := decide (p.task = .delete q) && (decide (p.phase = .owning) || decide (p.phase = .wiping))

/-- A deletion of this queue has recorded the name in the tree of channels. -/
def Proc.wipes (q : Nat) (p : Proc) : Bool := decide (p.task = .delete q) && decide (p.phase = .wiping)

/-- A request on this queue has a read lock. -/
def Proc.reads (q : Nat) (p : Proc) : Bool :=
  decide (p.phase = .inside) && match p.task with
    | .request _ r => decide (r = q)
    | _ => false

def St.marked (s : St) (q : Nat) : Bool := s.procs.any (Proc.marks q)
def St.owned (s : St) (q : Nat) : Bool := s.procs.any (Proc.owns q)
def St.wiped (s : St) (q : Nat) : Bool := s.procs.any (Proc.wipes q)
def St.read (s : St) (q : Nat) : Bool := s.procs.any (Proc.reads q)

/-- A goroutine goes on. -/
def St.to (s : St) (i : Nat) (p : Proc) (ph : Phase) : St := { s with procs := s.procs.set i { p with phase := ph } }

/-- A new goroutine. -/
def St.spawn (s : St) (t : Task) : St := { s with procs := s.procs ++ [⟨t, .ready⟩] }

/-- One count changes. -/
def upd {α : Type} (f : Nat → α) (q : Nat) (x : α) : Nat → α := fun r => if r = q then x else f r

/-- queues_client_local.go:143, 170, 222, 245, 266, 283, 302, 326: the answer while the queue is being deleted. -/
def Op.refusal : Op → Answer
  | .enqueue | .dequeue | .deleteChannel => .internal
  | _ => .conflict

/-- queues_client_local.go:118, 161, 213, 236, 254, 275, 292, 316: the answer when there is no such queue; QueryChannels says 200 and an empty list. -/
def Op.absent : Op → Answer
  | .query => .ok
  | _ => .missing

/-- The callback of a request whose queue is there; `pick` is what happens: whether there is an item, the client stays, the channel is found. -/
def nextInside (s : St) (i : Nat) (p : Proc) (op : Op) (q : Nat) (pick : Bool) : Option St :=
  match op with
  | .get | .update => some (s.to i p (.done .ok))
  -- queue_channels_client_local.go:186-194; the limiter may refuse the item
  | .enqueue =>
    if s.wiped q then some (s.to i p (.done .internal))
    else if pick then some ({ s with items := upd s.items q (s.items q + 1) }.to i p (.done .ok))
    else some (s.to i p (.done .conflict))
  -- queue_channels_client_local.go:256-273: an item, or the client is gone
  | .dequeue =>
    if pick then
      if 0 < s.items q then some ({ s with items := upd s.items q (s.items q - 1), out := upd s.out q (s.out q + 1) }.to i p (.done .ok)) else none
    else some (s.to i p (.done .conflict))
  -- queue_channels_client_local.go:296-315: QueryAction panics; then DeleteOneOfManyByKeyValues is fatal
  | .ack =>
    if s.wiped q then some (s.to i p (.done .internal))
    else if pick then if 0 < s.out q then some ({ s with out := upd s.out q (s.out q - 1) }.to i p (.done .ok)) else none
    else some (s.to i p (.done .missing))
  -- queue_channels_client_local.go:335-337
  | .heartbeat => if s.wiped q then some (s.to i p (.done .internal)) else some (s.to i p (.done (if pick then .ok else .missing)))
  -- queue_channels_client_local.go:400-407
  | .query => if s.wiped q then some { s with dead := some i } else some (s.to i p (.done .ok))
  -- queue_channels_client_local.go:121-127
  | .deleteChannel => if s.wiped q then some { s with dead := some i } else some (s.to i p (.done .ok))

/-- One step of a goroutine; `none`: it waits or is over. -/
def next (s : St) (i : Nat) (p : Proc) (pick : Bool) : Option St :=
  match p.task, p.phase with
  | .request op q, .ready => if s.marked q then some (s.to i p (.done op.refusal)) else some (s.to i p .checked)
  | .request op q, .checked =>
    if s.owned q then none
    else if s.queues q then some (if op = .dequeue then (s.to i p .inside).spawn (.scan q) else s.to i p .inside)
    else some (s.to i p (.done op.absent))
  | .request op q, .inside => nextInside s i p op q pick
  | .create q, .ready => if s.marked q then some (s.to i p (.done .conflict)) else some (s.to i p .checked)
  | .create q, .checked =>
    if s.owned q then none
    else if s.queues q then some (s.to i p (.done .conflict))
    else some ({ s with queues := upd s.queues q true }.to i p (.done .ok))
  -- queue_channels_client_local.go:242-250: the panic of a goroutine of its own
  | .scan q, .ready => if s.wiped q then some { s with dead := some i } else some (s.to i p (.done .ok))
  -- queue_channels_client_local.go:133-150: fatal, the error is ErrorOneIDDestroying, not ErrorManyIDDestroying
  | .timeout q, .ready => if s.wiped q then some { s with dead := some i } else some (s.to i p (.done .ok))
  | .delete q, .ready => if s.marked q then some (s.to i p (.done .conflict)) else some (s.to i p .marked)
  | .delete q, .marked =>
    if s.owned q || s.read q then none
    else if s.queues q then some (s.to i p .owning) else some (s.to i p (.done .ok))
  | .delete _, .owning => some (s.to i p .wiping)
  -- the channels are gone; the limiter deletes the override of the queue, or cannot be reached
  | .delete q, .wiping =>
    if pick then some ({ s with queues := upd s.queues q false, items := upd s.items q 0, out := upd s.out q 0 }.to i p (.done .ok))
    else some ({ s with items := upd s.items q 0, out := upd s.out q 0 }.to i p (.done .internal))
  | _, _ => none

/-- What can happen. -/
inductive Label where
  /-- a request arrives -/
  | request (op : Op) (q : Nat)
  | create (q : Nat)
  | delete (q : Nat)
  /-- a goroutine does its next step -/
  | go (i : Nat) (pick : Bool)
  /-- the time of a delivered item is over -/
  | expire (q : Nat)
deriving DecidableEq, Repr

/-- One event; after the end of the process nothing happens. -/
def step (s : St) (l : Label) : Option St :=
  if s.dead.isSome then none
  else match l with
    | .request op q => some (s.spawn (.request op q))
    | .create q => some (s.spawn (.create q))
    | .delete q => some (s.spawn (.delete q))
    | .go i pick => match s.procs[i]? with
      | some p => next s i p pick
      | none => none
    -- memory_queue_channel.go:643-648; the item is enqueued again or dropped, which does not matter here
    | .expire q => if 0 < s.out q then some ({ s with out := upd s.out q (s.out q - 1) }.spawn (.timeout q)) else none

/-- A history. -/
def run (s : St) : List Label → Option St
  | [] => some s
  | l :: ls => (step s l).bind fun s' => run s' ls

end Willow.DeleteRace
