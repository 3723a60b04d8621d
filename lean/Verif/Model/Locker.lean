/-
Model of the locker service: internal/locker/lock_manager/exclusive_lock.go, exclusive_locker.go, the request
validation of pkg/models/api/locker/v1/{lock,claim}.go and the status codes of
internal/locker/api/v1/handlers/locker_handler.go.

The model is a labelled transition system.  The state of one set of key-values (`St`) holds every lock object ever
created for it, the tree entry, and the list of all threads working on it (any number of client requests and timeout
goroutines).  The service (`Locker`) is a family of such states, one for each set of key-values.

Granularity: one step per channel rendezvous; the local statements between two rendezvous are part of the step before or
after.  Simplifications:
 * the associated tree is used through the interface proved for it (C18-C22): one slot for each set of key-values;
   what the tree guarantees for concurrent callers is modelled as one reader/writer lock for each set of key-values: `Delete` holds the id
   nodes and the node of the id for writing while `canDelete` runs (threadsafe_delete.go:74-105), the callback of `Find`
   runs while the node of the id is held for reading (threadsafe_find.go).  The real locks are coarser;
 * session ids and lock ids come from a UUID generator: a fresh id is one never handed out before;
 * the ticker is a nondeterministic event that can happen whenever the ticker runs;
 * the client counter is a natural number; its decrement wraps below zero as `Add(^uint64(0))` does, its increment does
   not wrap (fewer than 2^64 clients);
 * the empty session id "" of the Go code is `none`; claims always carry a nonempty session id (claim.go:20-25).
-/
namespace Willow.Locker

/-- A nonempty session id (claim.go:10-13). -/
abbrev Sess := Nat
/-- A lock id, `AssociatedID()` of the tree entry. -/
abbrev LockId := Nat

/-- Answer of a release to the handler goroutine (exclusive_lock.go:14-20). -/
inductive RelCode | failed | processed | destroy
deriving DecidableEq, Repr

/-- Where the goroutine of a lock is in `Execute` (exclusive_lock.go:99-259). -/
inductive Phase
  /-- not created yet -/
  | absent
  /-- saved in the tree although `AddExecuteTask` failed: nothing runs (exclusive_locker.go:75-86) -/
  | notRunning
  /-- outer select, line 108 -/
  | outer
  /-- a client was lost in the outer select; about to send `clientLostResponse` (122-127) -/
  | outerReply (destroy : Bool)
  /-- `processClaim` was handed out, waiting on `claimResponse` (133) -/
  | claiming
  /-- inner select (140-256) -/
  | held
  /-- a client was lost in the inner select; about to send `clientLostResponse <- false` (165) -/
  | heldReply
  /-- about to send `heartbeatResponse` (178, 180) -/
  | hbReply (ok : Bool)
  /-- about to send `releaseResponse` (206, 210, 216) -/
  | relReply (code : RelCode)
  /-- `timedOut` was received in the inner select; about to answer (248, 251) -/
  | toReply (destroy : Bool)
  /-- shutdown while a timeout is pending: waiting on `timedOut` (147) -/
  | ctxWait
  /-- shutdown: about to answer the timeout (150, 153) -/
  | ctxReply (destroy : Bool)
  /-- `Execute` returned; `clientLost`, `claim` and `done` are closed (100-104) -/
  | exited
  /-- the process crashed: `NewTicker` with a period that is not positive (136) or the explicit panic (163) -/
  | panicked
  /-- blocked for ever on `blockDone` (233, 245) -/
  | stuck
deriving DecidableEq, Repr

/-- exclusiveLock (exclusive_lock.go:22-61), without the channels (they are the steps) and the statistics. -/
structure Obj where
  phase : Phase := .absent
  /-- `sessionID`, `none` for "" -/
  session : Option Sess := none
  /-- `clientsWaitingForClaim` -/
  count : Nat := 0
  /-- whether the one slot of `blockDone` is full -/
  blockDone : Bool := false
  /-- whether the ticker runs -/
  armed : Bool := false
deriving DecidableEq, Repr

/-- `clientsWaitingForClaim.Add(^uint64(0))` (exclusive_lock.go:121, 149, 162, 205, 247). -/
def dec (n : Nat) : Nat := if n = 0 then 18446744073709551615 else n - 1

/-- What a thread working on this set of key-values is doing. -/
inductive Thread
  /-- `ObtainLock` in its select on the claim channel of lock `l` (exclusive_locker.go:99), with the requested timeout -/
  | waiting (l : LockId) (timeout : Int)
  /-- it received `processClaim` and is about to call it (119-127) -/
  | claimed (l : LockId) (timeout : Int)
  /-- its context is done; about to call `Delete` (105) -/
  | leaving (l : LockId)
  /-- in `LostClient` of the lock `l'` found in the tree, receiving on `clientLost` (exclusive_lock.go:356) -/
  | leavingIn (l l' : LockId)
  /-- receiving on `clientLostResponse` (358) -/
  | leavingResp (l l' : LockId)
  /-- `Heartbeat` of the lock, sending on `heartbeat` or receiving on `done` (309-318) -/
  | hbIn (l : LockId) (s : Sess)
  /-- receiving on `heartbeatResponse` (311) -/
  | hbResp (l : LockId) (s : Sess)
  /-- `Release`: `DeleteByAssociatedID` found the key-values of the id and is about to call `Delete`
  (threadsafe_delete.go:200-234) -/
  | relFound (l : LockId) (s : Sess)
  /-- `ReleaseLock` of the lock `l'` now in the tree, sending on `release` or receiving on `done` (exclusive_lock.go:332-344) -/
  | relIn (l' : LockId) (s : Sess)
  /-- receiving on `releaseResponse` (334) -/
  | relResp (l' : LockId) (s : Sess)
  /-- the timeout goroutine, about to call `Delete` (exclusive_lock.go:235, exclusive_locker.go:229) -/
  | toWant (l : LockId)
  /-- in `TimeOut` of the lock found in the tree, sending on `timedOut` (exclusive_lock.go:369) -/
  | toIn (l' : LockId)
  /-- receiving the answer on `timedOut` (370) -/
  | toResp (l' : LockId)
deriving DecidableEq, Repr

/-- The thread is inside the `canDelete` callback of `Delete`: it holds the key-values for writing
(threadsafe_delete.go:74-105). -/
def Thread.holdsW : Thread → Bool
  | .leavingIn .. | .leavingResp .. | .relIn .. | .relResp .. | .toIn _ | .toResp _ => true
  | _ => false

/-- The thread is inside the callback of a find: it holds the item for reading (threadsafe_find.go, threadsafe_query.go:55). -/
def Thread.holdsR : Thread → Bool
  | .hbIn .. | .hbResp .. => true
  | _ => false

/-- What clients (and the clock) can observe. -/
inductive Ev
  /-- a client got the lock with id `l` and session `s` -/
  | granted (l : LockId) (s : Sess)
  /-- `ObtainLock` returned nil: 503 -/
  | unavailable
  /-- the disconnect of a client that had not got the lock was processed; `removed`: the lock is gone -/
  | left (l : LockId) (removed : Bool)
  /-- the session was heartbeaten -/
  | renewed (l : LockId) (s : Sess)
  /-- the session was given up by its holder -/
  | released (l : LockId) (s : Sess)
  /-- the time of the session ran out -/
  | expired (l : LockId) (s : Option Sess)
  /-- answer to a heartbeat: 200, 409, 404, shutdown -/
  | hbOk (s : Sess) | hbConflict (s : Sess) | hbNotFound (s : Sess) | hbShutdown (s : Sess)
  /-- return value of `exclusiveLocker.Release`: nil (with the lock removed or not), 409, 404, shutdown -/
  | relOk (s : Sess) (removed : Bool) | relConflict (s : Sess) | relNotFound (s : Sess) | relShutdown (s : Sess)
  /-- the timeout of a session was processed -/
  | timeoutDone (l : LockId) (removed : Bool)
deriving DecidableEq, Repr

/-- Everything belonging to one set of key-values. -/
structure St where
  /-- lock objects by lock id -/
  objs : LockId → Obj := fun _ => {}
  /-- ids below were used -/
  next : LockId := 0
  /-- entry of the associated tree for these key-values -/
  tree : Option LockId := none
  threads : List Thread := []
  /-- the context of the service is done -/
  down : Bool := false
  /-- what happened so far, newest first -/
  tr : List Ev := []

/-- Change of one lock object. -/
def St.upd (s : St) (l : LockId) (o : Obj) : St := { s with objs := fun i => if i = l then o else s.objs i }
/-- An observable event. -/
def St.log (s : St) (e : Ev) : St := { s with tr := e :: s.tr }
/-- Replacement of the thread list. -/
def St.thr (s : St) (ts : List Thread) : St := { s with threads := ts }
/-- The tree entry goes away when `canDelete` returned true (threadsafe_delete.go:107-134). -/
def St.drop (s : St) (b : Bool) : St := { s with tree := if b then none else s.tree }

/-- No other thread holds the key-values, so a writer can get in. -/
def free (ts : List Thread) : Prop := ∀ t ∈ ts, t.holdsW = false ∧ t.holdsR = false
/-- No writer holds the key-values, so a reader can get in. -/
def readable (ts : List Thread) : Prop := ∀ t ∈ ts, t.holdsW = false

instance (ts : List Thread) : Decidable (free ts) := by unfold free; infer_instance
instance (ts : List Thread) : Decidable (readable ts) := by unfold readable; infer_instance

/-- A new session id (idgenerator.UUID, exclusive_lock.go:271): never granted before. -/
def freshIn (tr : List Ev) (s : Sess) : Prop := ∀ l s', Ev.granted l s' ∈ tr → s' ≠ s

/-- Phase reached by `time.NewTicker(lockTimeout)` (exclusive_lock.go:136): it panics for periods ≤ 0. -/
def tickerPhase (timeout : Int) : Phase := if timeout ≤ 0 then .panicked else .held

/-- The outer select after a client was lost (exclusive_lock.go:120-127). -/
def lostOuter (o : Obj) : Obj :=
  { o with count := dec o.count, phase := .outerReply (dec o.count == 0) }

/-- The inner select after a client was lost (exclusive_lock.go:161-165). -/
def lostHeld (o : Obj) : Obj :=
  { o with count := dec o.count, phase := if dec o.count = 0 then .panicked else .heldReply }

/-- `processClaim` and the continuation of `Execute` (exclusive_lock.go:133-136, 268-289). -/
def claim (o : Obj) (sess : Sess) (timeout : Int) : Obj :=
  { o with session := some sess, phase := tickerPhase timeout, armed := true }

/-- The heartbeat case (exclusive_lock.go:168-181); `ticker.Reset` panics for a period of 0, which is the stored timeout
exactly when no session is stored, so never here. -/
def heartbeat (o : Obj) (s : Sess) : Obj :=
  if o.session = some s then { o with armed := true, phase := .hbReply true } else { o with phase := .hbReply false }

/-- The release case (exclusive_lock.go:184-216). -/
def release (o : Obj) (s : Sess) : Obj :=
  if o.session = some s then
    { o with session := none, armed := false, count := dec o.count
             phase := .relReply (if dec o.count = 0 then .destroy else .processed) }
  else { o with phase := .relReply .failed }

/-- The ticker case (exclusive_lock.go:219-237), without starting the timeout goroutine. -/
def tick (o : Obj) : Obj :=
  { o with session := none, armed := false, blockDone := true, phase := if o.blockDone then .stuck else .held }

/-- The `timedOut` case (exclusive_lock.go:240-254). -/
def timedOut (o : Obj) : Obj :=
  if o.blockDone then
    { o with blockDone := false, count := dec o.count, phase := .toReply (dec o.count == 0) }
  else { o with phase := .stuck }

/-- The shutdown case (exclusive_lock.go:142-158). -/
def ctxDone (o : Obj) : Obj :=
  if o.blockDone then { o with blockDone := false, phase := .ctxWait } else { o with phase := .exited }

/-- `timedOut` received during the shutdown (exclusive_lock.go:147-154). -/
def ctxTimedOut (o : Obj) : Obj :=
  { o with count := dec o.count, phase := .ctxReply (dec o.count == 0) }

/-- Phase after the answer to a release was sent (exclusive_lock.go:205-216). -/
def afterRelease : RelCode → Phase
  | .destroy => .exited
  | .processed => .outer
  | .failed => .held

/-- One step on one set of key-values; `acc` are the timeouts that requests can carry. -/
inductive Step (acc : Int → Prop) : St → St → Prop
  /-- The service is told to stop. -/
  | shutdown (s) : Step acc s { s with down := true }
  /-- `ObtainLock`, the lock exists: `onFind` (exclusive_locker.go:88-90; GetClaimChannel, exclusive_lock.go:296-299). -/
  | obtainFind (s l timeout) (ha : acc timeout) (h : s.tree = some l) (hr : readable s.threads) :
      Step acc s ((s.upd l { s.objs l with count := (s.objs l).count + 1 }).thr (.waiting l timeout :: s.threads))
  /-- `ObtainLock`, new lock: `onCreate` (exclusive_locker.go:69-86, exclusive_lock.go:63-94). -/
  | obtainCreate (s timeout) (ha : acc timeout) (h : s.tree = none) (hf : free s.threads) :
      Step acc s { (s.upd s.next { phase := .outer, count := 1 }).thr (.waiting s.next timeout :: s.threads) with
                 tree := some s.next, next := s.next + 1 }
  /-- `ObtainLock`, new lock, but the task manager refuses the task because the service stops: the lock is saved, the client
  gets nothing (exclusive_locker.go:77-86). -/
  | obtainRefused (s) (h : s.tree = none) (hf : free s.threads) (hd : s.down = true) :
      Step acc s { (s.upd s.next { phase := .notRunning }).log .unavailable with
                 tree := some s.next, next := s.next + 1 }
  /-- The same, but the client is gone by then and the select takes that case although the channel is closed too: it goes on to
  `LostClient` of the lock that was never started (exclusive_locker.go:99-107). -/
  | obtainRefusedLost (s) (h : s.tree = none) (hf : free s.threads) (hd : s.down = true) :
      Step acc s { (s.upd s.next { phase := .notRunning }).thr (.leaving s.next :: s.threads) with
                 tree := some s.next, next := s.next + 1 }
  /-- The claim channel is closed: `ObtainLock` returns nil (exclusive_locker.go:112-117). -/
  | obtainClosed (s pre post l timeout) (ht : s.threads = pre ++ .waiting l timeout :: post)
      (hp : (s.objs l).phase = .exited) :
      Step acc s ((s.thr (pre ++ post)).log .unavailable)
  /-- A waiting client receives `processClaim` (exclusive_lock.go:132, exclusive_locker.go:111). -/
  | claimSend (s pre post l timeout) (ht : s.threads = pre ++ .waiting l timeout :: post)
      (hp : (s.objs l).phase = .outer) :
      Step acc s ((s.upd l { s.objs l with phase := .claiming }).thr (pre ++ .claimed l timeout :: post))
  /-- It calls `processClaim`; the lock starts its inner loop (exclusive_lock.go:133-136, 268-289). -/
  | claimDone (s pre post l timeout sess) (ht : s.threads = pre ++ .claimed l timeout :: post)
      (hp : (s.objs l).phase = .claiming) (hfresh : freshIn s.tr sess) :
      Step acc s (((s.upd l (claim (s.objs l) sess timeout)).thr (pre ++ post)).log (.granted l sess))
  /-- A waiting client disconnects (exclusive_locker.go:102). -/
  | disconnect (s pre post l timeout) (ht : s.threads = pre ++ .waiting l timeout :: post) :
      Step acc s (s.thr (pre ++ .leaving l :: post))
  /-- `Delete` finds a lock for the key-values and calls `LostClient` (exclusive_locker.go:105-107). -/
  | leaveEnter (s pre post l l') (ht : s.threads = pre ++ .leaving l :: post) (hf : free (pre ++ post))
      (h : s.tree = some l') :
      Step acc s (s.thr (pre ++ .leavingIn l l' :: post))
  /-- `Delete` finds nothing. -/
  | leaveNone (s pre post l) (ht : s.threads = pre ++ .leaving l :: post) (hf : free (pre ++ post))
      (h : s.tree = none) :
      Step acc s ((s.thr (pre ++ post)).log (.left l false))
  /-- `LostClient` meets the outer select (exclusive_lock.go:120). -/
  | lostOuter (s pre post l l') (ht : s.threads = pre ++ .leavingIn l l' :: post) (hp : (s.objs l').phase = .outer) :
      Step acc s ((s.upd l' (lostOuter (s.objs l'))).thr (pre ++ .leavingResp l l' :: post))
  /-- The answer of the outer select (exclusive_lock.go:122-127). -/
  | lostOuterReply (s pre post l l' b) (ht : s.threads = pre ++ .leavingResp l l' :: post)
      (hp : (s.objs l').phase = .outerReply b) :
      Step acc s ((((s.upd l' { s.objs l' with phase := if b then .exited else .outer }).thr (pre ++ post)).drop b).log (.left l b))
  /-- `LostClient` meets the inner select (exclusive_lock.go:161). -/
  | lostHeld (s pre post l l') (ht : s.threads = pre ++ .leavingIn l l' :: post) (hp : (s.objs l').phase = .held) :
      Step acc s ((s.upd l' (lostHeld (s.objs l'))).thr (pre ++ .leavingResp l l' :: post))
  /-- The answer of the inner select (exclusive_lock.go:165). -/
  | lostHeldReply (s pre post l l') (ht : s.threads = pre ++ .leavingResp l l' :: post)
      (hp : (s.objs l').phase = .heldReply) :
      Step acc s (((s.upd l' { s.objs l' with phase := .held }).thr (pre ++ post)).log (.left l false))
  /-- `LostClient` on a lock that stopped: the channel is closed (exclusive_lock.go:356-361). -/
  | lostClosed (s pre post l l') (ht : s.threads = pre ++ .leavingIn l l' :: post) (hp : (s.objs l').phase = .exited) :
      Step acc s ((s.thr (pre ++ post)).log (.left l false))
  /-- `Heartbeat` for a lock id that does not exist (exclusive_locker.go:181). -/
  | hbMissing (s l sess) (hr : readable s.threads) (h : s.tree ≠ some l) :
      Step acc s (s.log (.hbNotFound sess))
  /-- `Heartbeat` finds the lock (exclusive_locker.go:189-193). -/
  | hbEnter (s l sess) (hr : readable s.threads) (h : s.tree = some l) :
      Step acc s (s.thr (.hbIn l sess :: s.threads))
  /-- The lock takes the heartbeat (exclusive_lock.go:168-181). -/
  | hbSend (s pre post l sess) (ht : s.threads = pre ++ .hbIn l sess :: post) (hp : (s.objs l).phase = .held) :
      Step acc s (if (heartbeat (s.objs l) sess).phase = .hbReply true
        then ((s.upd l (heartbeat (s.objs l) sess)).thr (pre ++ .hbResp l sess :: post)).log (.renewed l sess)
        else (s.upd l (heartbeat (s.objs l) sess)).thr (pre ++ .hbResp l sess :: post))
  /-- The answer to the heartbeat (exclusive_lock.go:178-180, 311-315). -/
  | hbAnswer (s pre post l sess b) (ht : s.threads = pre ++ .hbResp l sess :: post)
      (hp : (s.objs l).phase = .hbReply b) :
      Step acc s (((s.upd l { s.objs l with phase := .held }).thr (pre ++ post)).log (if b then .hbOk sess else .hbConflict sess))
  /-- Heartbeat of a lock that stopped (exclusive_lock.go:316-317). -/
  | hbClosed (s pre post l sess) (ht : s.threads = pre ++ .hbIn l sess :: post) (hp : (s.objs l).phase = .exited) :
      Step acc s ((s.thr (pre ++ post)).log (.hbShutdown sess))
  /-- `Release` for a lock id that does not exist (exclusive_locker.go:208). -/
  | relMissing (s l sess) (hr : readable s.threads) (h : s.tree ≠ some l) :
      Step acc s (s.log (.relNotFound sess))
  /-- `Release` looks up the key-values of the lock id (threadsafe_delete.go:200-234). -/
  | relLookup (s l sess) (hr : readable s.threads) (h : s.tree = some l) :
      Step acc s (s.thr (.relFound l sess :: s.threads))
  /-- By then the key-values have no lock any more (threadsafe_delete.go:202). -/
  | relGone (s pre post l sess) (ht : s.threads = pre ++ .relFound l sess :: post) (hf : free (pre ++ post))
      (h : s.tree = none) :
      Step acc s ((s.thr (pre ++ post)).log (.relNotFound sess))
  /-- `Delete` finds a lock for the key-values, possibly a newer one, and calls `ReleaseLock` (exclusive_locker.go:210-215). -/
  | relEnter (s pre post l sess l') (ht : s.threads = pre ++ .relFound l sess :: post) (hf : free (pre ++ post))
      (h : s.tree = some l') :
      Step acc s (s.thr (pre ++ .relIn l' sess :: post))
  /-- The lock takes the release (exclusive_lock.go:184-216). -/
  | relSend (s pre post l' sess) (ht : s.threads = pre ++ .relIn l' sess :: post) (hp : (s.objs l').phase = .held) :
      Step acc s (if (release (s.objs l') sess).phase = .relReply .failed
        then (s.upd l' (release (s.objs l') sess)).thr (pre ++ .relResp l' sess :: post)
        else ((s.upd l' (release (s.objs l') sess)).thr (pre ++ .relResp l' sess :: post)).log (.released l' sess))
  /-- The answer to the release (exclusive_lock.go:205-216, 334-343). -/
  | relAnswer (s pre post l' sess code) (ht : s.threads = pre ++ .relResp l' sess :: post)
      (hp : (s.objs l').phase = .relReply code) :
      Step acc s ((((s.upd l' { s.objs l' with phase := afterRelease code }).thr (pre ++ post)).drop (code = .destroy)).log
        (if code = .failed then .relConflict sess else .relOk sess (code = .destroy)))
  /-- Release of a lock that stopped (exclusive_lock.go:342-343). -/
  | relClosed (s pre post l' sess) (ht : s.threads = pre ++ .relIn l' sess :: post) (hp : (s.objs l').phase = .exited) :
      Step acc s ((s.thr (pre ++ post)).log (.relShutdown sess))
  /-- The ticker fires (exclusive_lock.go:219-237). -/
  | tick (s l) (hp : (s.objs l).phase = .held) (ha : (s.objs l).armed = true) :
      Step acc s (((s.upd l (tick (s.objs l))).thr (.toWant l :: s.threads)).log (.expired l (s.objs l).session))
  /-- The timeout goroutine finds a lock for the key-values (exclusive_locker.go:228-237). -/
  | toEnter (s pre post l l') (ht : s.threads = pre ++ .toWant l :: post) (hf : free (pre ++ post))
      (h : s.tree = some l') :
      Step acc s (s.thr (pre ++ .toIn l' :: post))
  /-- It finds none. -/
  | toNone (s pre post l) (ht : s.threads = pre ++ .toWant l :: post) (hf : free (pre ++ post)) (h : s.tree = none) :
      Step acc s (s.thr (pre ++ post))
  /-- The inner select takes the timeout (exclusive_lock.go:240-254). -/
  | toSend (s pre post l') (ht : s.threads = pre ++ .toIn l' :: post) (hp : (s.objs l').phase = .held) :
      Step acc s ((s.upd l' (timedOut (s.objs l'))).thr (pre ++ .toResp l' :: post))
  /-- The answer to the timeout (exclusive_lock.go:248-251). -/
  | toAnswer (s pre post l' b) (ht : s.threads = pre ++ .toResp l' :: post) (hp : (s.objs l').phase = .toReply b) :
      Step acc s ((((s.upd l' { s.objs l' with phase := if b then .exited else .outer }).thr (pre ++ post)).drop b).log
        (.timeoutDone l' b))
  /-- The inner select sees the shutdown (exclusive_lock.go:142-158). -/
  | ctx (s l) (hd : s.down = true) (hp : (s.objs l).phase = .held) :
      Step acc s (s.upd l (ctxDone (s.objs l)))
  /-- The timeout is taken during the shutdown (exclusive_lock.go:147). -/
  | ctxSend (s pre post l') (ht : s.threads = pre ++ .toIn l' :: post) (hp : (s.objs l').phase = .ctxWait) :
      Step acc s ((s.upd l' (ctxTimedOut (s.objs l'))).thr (pre ++ .toResp l' :: post))
  /-- The answer to the timeout during the shutdown (exclusive_lock.go:149-158). -/
  | ctxAnswer (s pre post l' b) (ht : s.threads = pre ++ .toResp l' :: post) (hp : (s.objs l').phase = .ctxReply b) :
      Step acc s ((((s.upd l' { s.objs l' with phase := .exited }).thr (pre ++ post)).drop b).log (.timeoutDone l' b))

/-- States reachable from a start state. -/
inductive Reach (acc : Int → Prop) (s0 : St) : St → Prop
  | refl : Reach acc s0 s0
  | step {s s'} : Reach acc s0 s → Step acc s s' → Reach acc s0 s'

/-- The service: one state for each set of key-values (the associated tree `exclusiveLocks`, exclusive_locker.go:33-47). -/
abbrev Locker (K : Type) := K → St

/-- A step of the service: one step on one set of key-values; a new session id is new for the whole service. -/
inductive LStep {K : Type} [DecidableEq K] (acc : Int → Prop) : Locker K → Locker K → Prop
  | mk (g : Locker K) (k : K) (s' : St) (h : Step acc (g k) s')
      (hfresh : ∀ l x, s'.tr = .granted l x :: (g k).tr → ∀ k', freshIn (g k').tr x) :
      LStep acc g (fun i => if i = k then s' else g i)

/-- Reachable states of the service; at start there are no locks and no requests. -/
inductive LReach {K : Type} [DecidableEq K] (acc : Int → Prop) : Locker K → Prop
  | init : LReach acc (fun _ => {})
  | step {g g'} : LReach acc g → LStep acc g g' → LReach acc g'

/-! ### Requests -/

/-- LockProperties.Validate (pkg/models/api/locker/v1/lock.go:118-127): a given timeout must not be 0. -/
def validTimeout : Option Int → Bool
  | none => true
  | some t => t != 0

/-- SetDefaultProperties (lock.go:24-33): the timeout `ObtainLock` uses. -/
def effectiveTimeout (default : Int) : Option Int → Int
  | none => default
  | some t => t

/-- Status code of the release handler (locker_handler.go:128-151): the error of `Release` is ignored. -/
def releaseStatus (_ : Ev) : Nat := 204
/-- Status code of the heartbeat handler (locker_handler.go:78-104); 503 is errors.ServerShutdown. -/
def heartbeatStatus : Ev → Nat
  | .hbOk _ => 200
  | .hbConflict _ => 409
  | .hbNotFound _ => 404
  | _ => 503

end Willow.Locker
