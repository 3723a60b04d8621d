/-
The locks of the tree of queues (internal/willow/brokers/queues/queues_client_local.go) under concurrent requests.

Every request on a queue runs inside `queues.Find` (queues_client_local.go:116-336) and so inside the callback of
btree/threadsafe_find.go:18-120; creating and deleting queues run in `queues.Create` / `queues.Destroy`
(queues_client_local.go:52-82, 182-209; btree/threadsafe_create.go:25-65, threadsafe_destroy.go:18-58, threadsafe_delete.go:76-96).

Simplifications: the tree has one node, the root (exact for at most two queues: `NewThreadSafe(2)`, threadsafe_b_tree.go:64-85, 126-135;
with more queues the same happens at the node of the queue and its parent).  A queue stands for one of its channels: an enqueued item
can be taken by any dequeue request of the queue.  The calls to the limiter succeed.  `sync.RWMutex`: `Lock` first keeps out new readers,
then waits for the present ones (Go documentation of RWMutex).
-/
namespace Willow.QueueGate

/-- Requests; the number is the queue. -/
inductive Kind
  /-- queues_client_local.go:234-250 -/
  | enqueue (q : Nat)
  /-- queues_client_local.go:252-271 -/
  | dequeue (q : Nat)
  /-- get, list, update, acknowledge, heartbeat and the requests on channels (84-180, 211-232, 273-336): like an enqueue, without items -/
  | look (q : Nat)
  /-- create or delete a queue -/
  | write
deriving DecidableEq, Repr

/-- A request and how far it got.

Reading requests: 0 → `btree.lock.RLock()` → 1 → `root.lock.RLock()` → 2 → `btree.lock.RUnlock()` → 3 → callback → 4 →
`root.lock.RUnlock()` → 5 (threadsafe_find.go:39-58, 87-97).

Writing requests: 0 → `btree.lock.Lock()` called → 1 → obtained → 2 → `root.lock.Lock()` called → 3 → obtained → 4 → `btree.lock` released
→ 5 → `root.lock` released → 6 (threadsafe_create.go:46-60, 84-105). -/
structure Call where
  kind : Kind
  pc : Nat
  /-- the client closed its connection (dequeue only: queue_channels_client_local.go:222, 256-273) -/
  closed : Bool
deriving DecidableEq, Repr

/-- The requests so far, and the items waiting in each queue. -/
structure St where
  calls : List Call
  items : Nat → Nat

/-- Nothing yet. -/
def St.init : St := ⟨[], fun _ => 0⟩

/-- A writing request. -/
def Call.writer (c : Call) : Bool := decide (c.kind = .write)

/-- It read-holds the tree lock (threadsafe_find.go:39-52). -/
def Call.readsTree (c : Call) : Bool := !c.writer && (decide (c.pc = 1) || decide (c.pc = 2))
/-- It read-holds the root (threadsafe_find.go:47-58, 93-97). -/
def Call.readsRoot (c : Call) : Bool := !c.writer && (decide (c.pc = 2) || decide (c.pc = 3) || decide (c.pc = 4))
/-- It holds the tree lock for writing (threadsafe_create.go:46-50, 98-101). -/
def Call.ownsTree (c : Call) : Bool := c.writer && (decide (c.pc = 2) || decide (c.pc = 3) || decide (c.pc = 4))
/-- It holds the root for writing (threadsafe_create.go:56, 86-88). -/
def Call.ownsRoot (c : Call) : Bool := c.writer && (decide (c.pc = 4) || decide (c.pc = 5))
/-- It waits for the tree lock for writing. -/
def Call.wantsTree (c : Call) : Bool := c.writer && decide (c.pc = 1)
/-- It waits for the root for writing. -/
def Call.wantsRoot (c : Call) : Bool := c.writer && decide (c.pc = 3)

/-- `btree.lock.RLock()` succeeds: no writer holds it or waits for it (sync.RWMutex). -/
def St.canReadTree (s : St) : Bool := s.calls.all (fun c => !c.ownsTree && !c.wantsTree)
/-- `root.lock.RLock()` succeeds. -/
def St.canReadRoot (s : St) : Bool := s.calls.all (fun c => !c.ownsRoot && !c.wantsRoot)
/-- `btree.lock.Lock()` is obtained: no reader and no other writer. -/
def St.canOwnTree (s : St) : Bool := s.calls.all (fun c => !c.ownsTree && !c.readsTree)
/-- `root.lock.Lock()` is obtained. -/
def St.canOwnRoot (s : St) : Bool := s.calls.all (fun c => !c.ownsRoot && !c.readsRoot)

/-- What can happen. -/
inductive Label
  | arrive (k : Kind)
  /-- request `i` does its next step -/
  | go (i : Nat)
  /-- the client of request `i` closes its connection -/
  | close (i : Nat)
deriving DecidableEq, Repr

/-- The request one step further. -/
def St.advance (s : St) (i : Nat) (c : Call) : St := { s with calls := s.calls.set i { c with pc := c.pc + 1 } }

/-- The callback of a reading request (queues_client_local.go:236-240, 259-262; queue_channels_client_local.go:256-273: a dequeue returns
when it got an item or the client is gone). -/
def St.callback (s : St) (i : Nat) (c : Call) : Option St :=
  match c.kind with
  | .enqueue q => some { s.advance i c with items := fun r => if r = q then s.items r + 1 else s.items r }
  | .dequeue q =>
    if s.items q > 0 then some { s.advance i c with items := fun r => if r = q then s.items r - 1 else s.items r }
    else if c.closed then some (s.advance i c)
    else none
  | _ => some (s.advance i c)

/-- The next step of a request; `none` if it has to wait or is over (lines at `Call`). -/
def St.go (s : St) (i : Nat) (c : Call) : Option St :=
  if c.writer then
    match c.pc with
    | 0 => some (s.advance i c)
    | 1 => if s.canOwnTree then some (s.advance i c) else none
    | 2 => some (s.advance i c)
    | 3 => if s.canOwnRoot then some (s.advance i c) else none
    | 4 => some (s.advance i c)
    | 5 => some (s.advance i c)
    | _ => none
  else
    match c.pc with
    | 0 => if s.canReadTree then some (s.advance i c) else none
    | 1 => if s.canReadRoot then some (s.advance i c) else none
    | 2 => some (s.advance i c)
    | 3 => s.callback i c
    | 4 => some (s.advance i c)
    | _ => none

/-- One event (functions cited above). -/
def step (s : St) : Label → Option St
  | .arrive k => some { s with calls := s.calls ++ [⟨k, 0, false⟩] }
  | .go i => match s.calls[i]? with
    | some c => s.go i c
    | none => none
  | .close i => match s.calls[i]? with
    | some c => some { s with calls := s.calls.set i { c with closed := true } }
    | none => none

/-- A history. -/
def run (s : St) : List Label → Option St
  | [] => some s
  | l :: ls => match step s l with
    | none => none
    | some s' => run s' ls

end Willow.QueueGate
