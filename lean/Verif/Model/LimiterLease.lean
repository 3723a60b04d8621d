import Verif.Model.LimiterLocks
/-
Concurrent increments whose leases can be lost: internal/limiter/counters/counter_client_local.go:126-188 and pkg/clients/locker_client/lock.go.

As Model/LimiterLocks, but the lock service can take back any lock an increment holds at any moment (the lease of one second runs out because
heartbeats are late or not answered, lock.go:85-141, or the locker restarts).  The code looks at the `Done` channels of its locks exactly once, after all
of them were obtained (counter_client_local.go:170-188); from then on a lost lock is not noticed.

* Whether that one look sees a lock lost before depends on the order in which the merged channels are read (the package channelops is not part of the
  repository); here it may or may not be seen.  If it is, the increment is refused (`fail`).
* A lock lost while the increment already releases its locks is as good as released.
* ObtainLock returns neither a lock nor an error when its request is cancelled (locker_client.go:147-158); the increment then panics at
  counter_client_local.go:164, after the locks obtained before are released, in the deferred function.  For counters and locks this is `fail` as well.
-/
namespace Willow.LimLease
open Willow.Assoc Willow.OTM Willow.Limiter
open Willow.LimConc (Thread Req Phase Label advance sortedKeys sameLock)

variable {K : Type}

/-- A running increment (counter_client_local.go:78-235) and the keys of the locks it lost before its answer was settled. -/
structure LThread (K : Type) where
  th : Thread K
  lost : List GoString

/-- The locks an increment still holds at the locker: counter_client_local.go:127-166, less those taken back. -/
def LThread.holds (t : LThread K) : KVs K := t.th.held.filter (fun kv => !t.lost.contains kv.1)

/-- The limiter and the running increments: counter_client_local.go:47-76. -/
structure LSys (K : Type) where
  st : State K
  threads : List (LThread K)

/-- The increment is before its answer is settled: it obtains locks, checks limits or is about to add (counter_client_local.go:126-232). -/
def LThread.open (t : LThread K) : Prop :=
  match t.th.phase with
  | .releasing _ _ | .done _ => False
  | _ => True

section
variable [KeyOps K]

/-- The lock an increment asks for next is not held by any increment: the locker grants a lock again once its lease is over (C27). -/
def LFree (threads : List (LThread K)) (t : LThread K) : Prop :=
  ∀ l ∈ t.th.wants, ∀ u ∈ threads, ∀ h ∈ u.holds, sameLock l h = false

/-- One step of the system; all but `lose` and `loseLate` as in Model/LimiterLocks. -/
inductive LStep : LSys K → Label K → LSys K → Prop
  | arrive (s : LSys K) (r : Req K) : LStep s (.arrive r) ⟨s.st, ⟨⟨r, .start⟩, []⟩ :: s.threads⟩
  | other (s : LSys K) (op : Op K) (st' : State K) (out : Out K) : Limiter.step s.st op = some (st', out) → LStep s (.other op) ⟨st', s.threads⟩
  | move (st : State K) (a b : List (LThread K)) (t : LThread K) (st' : State K) (p : Phase K) :
      LFree (a ++ t :: b) t → advance st t.th = some (st', p) → LStep ⟨st, a ++ t :: b⟩ .move ⟨st', a ++ ⟨⟨t.th.req, p⟩, t.lost⟩ :: b⟩
  /-- counter_client_local.go:156-159 and 174-188: a lock is not obtained, or the look at the locks finds one lost; the answer is 500 -/
  | fail (st : State K) (a b : List (LThread K)) (r : Req K) (ls : List (List GoString × Int)) (todo lost : List GoString) :
      LStep ⟨st, a ++ ⟨⟨r, .locking ls todo⟩, lost⟩ :: b⟩ .move
        ⟨st, a ++ ⟨⟨r, .releasing ((sortedKeys r.kvs).filter (fun k => !todo.contains k)) .internal⟩, lost⟩ :: b⟩
  /-- lock.go:75-79, 92-94, 125-141: the lease of a lock is lost -/
  | lose (st : State K) (a b : List (LThread K)) (t : LThread K) (k : GoString) : t.open → k ∈ t.holds.map (·.1) →
      LStep ⟨st, a ++ t :: b⟩ .move ⟨st, a ++ ⟨t.th, k :: t.lost⟩ :: b⟩
  /-- the same while the locks are being released, counter_client_local.go:128-135 -/
  | loseLate (st : State K) (a b : List (LThread K)) (r : Req K) (todo lost : List GoString) (out : Out K) (k : GoString) :
      LStep ⟨st, a ++ ⟨⟨r, .releasing todo out⟩, lost⟩ :: b⟩ .move ⟨st, a ++ ⟨⟨r, .releasing (todo.filter (fun x => x != k)) out⟩, lost⟩ :: b⟩

/-- A sequence of steps. -/
inductive LRun : LSys K → List (Label K) → LSys K → Prop
  | nil (s : LSys K) : LRun s [] s
  | cons {s s1 s2 : LSys K} {l : Label K} {ls : List (Label K)} : LStep s l s1 → LRun s1 ls s2 → LRun s (l :: ls) s2

end
end Willow.LimLease
