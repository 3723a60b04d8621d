import Verif.Model.Locker
/-
Model of the query of locks: exclusiveLocker.LocksQuery (internal/locker/lock_manager/exclusive_locker.go:136-176), the
handler (internal/locker/api/v1/handlers/locker_handler.go:106-126) and the validation of the answer
(pkg/models/api/server.go:80-116, pkg/models/api/locker/v1/lock.go:36-54, 82-158, locks.go).

A query visits the locks it selects one after the other, while other requests go on; the answer is put together and
validated after the last visit.  The timeout of a lock is in the answer as a pointer to the field of the lock object
(exclusive_locker.go:160-162): it is read when the answer is validated, not when the lock is visited.
Simplifications:
 * which locks are visited is what the associated tree guarantees (C20): the model takes the list of their key-values;
 * the stored timeout is 0 exactly when no session is stored (both are set in processClaim, exclusive_lock.go:268-282, and
   cleared together, 186-196 and 222-232), and validated requests carry no timeout of 0 (`validTimeout`), so the validation of
   the timeout is a test of the session;
 * `TimeTillExipre` is left out: it is not validated.
-/
namespace Willow.Locker

/-- What the answer says about one lock (exclusive_locker.go:155-171). -/
structure Report (K : Type) where
  keys : K
  lockId : LockId
  /-- `none` is the empty session id -/
  session : Option Sess
  /-- LocksHeldOrWaiting -/
  count : Nat
deriving DecidableEq, Repr

/-- The report on the lock with id `l` in state `s` (exclusive_locker.go:155-171). -/
def reportOf {K : Type} (k : K) (s : St) (l : LockId) : Report K :=
  { keys := k, lockId := l, session := (s.objs l).session, count := (s.objs l).count }

/-- The callback of one visit (exclusive_locker.go:146-174): a set of key-values without a lock is not in the tree. -/
def visit {K : Type} (k : K) (s : St) : List (Report K) := (s.tree.map (reportOf k s)).toList

/-- The visits of a query (exclusive_locker.go:146): the states the service goes through, the key-values to visit and the reports
gathered; between two visits other requests go on.  A visit needs the node of the lock for reading (threadsafe_query.go:55). -/
inductive Visits {K : Type} [DecidableEq K] (acc : Int → Prop) : List (Locker K) → List K → List (Report K) → Prop
  | done (g) : Visits acc [g] [] []
  | other {g g' path ks rs} : LStep acc g g' → Visits acc (g' :: path) ks rs → Visits acc (g :: g' :: path) ks rs
  | see {g path k ks rs} : readable (g k).threads → Visits acc (g :: path) ks rs →
      Visits acc (g :: path) (k :: ks) (visit k (g k) ++ rs)

/-- LockState.Validate (lock.go:144-158). -/
def validState {K : Type} (r : Report K) : Bool := r.session.isSome && r.count != 0

/-- LockProperties.Validate of the answer (lock.go:118-127) when the service is in state `g`. -/
def validProps {K : Type} (g : Locker K) (r : Report K) : Bool := ((g r.keys).objs r.lockId).session.isSome

/-- Lock.Validate (lock.go:36-56), Locks.Validate (locks.go:13-25). -/
def validReports {K : Type} (g : Locker K) (rs : List (Report K)) : Bool := rs.all fun r => validProps g r && validState r

/-- The answer of the handler (locker_handler.go:119-123, server.go:80-116): the reports with 200, or 500 when one of them is not
valid. -/
def queryAnswer {K : Type} (g : Locker K) (rs : List (Report K)) : Nat × List (Report K) :=
  if validReports g rs then (200, rs) else (500, [])

end Willow.Locker
