import Verif.Model.Limiter
/-
Concurrent increments: internal/limiter/counters/counter_client_local.go:78-276 as a transition system.

* Any number of increments run at the same time; they interleave between any two of the steps below with each other and with all other
  requests.  Every other request (rules, overrides, decrements, setting counters, queries) is one step (`Limiter.step`).
* One step each: finding the limits; obtaining one lock; collecting the ids of the counters of one limit; reading one of these counters;
  creating or increasing the counter; releasing one lock.  (Each of them is guarded by locks of the trees and of the counter itself:
  counters/memory/counter.go:15-45.  That finding the limits is one step is a simplification: its iteration over rules and overrides
  can interleave with changes of rules.)
* The locks come from the locker service, which grants a lock for the same key-values to one client at a time (C27).  Here a lock is
  free if no increment holds it.  That a held lock's lease expires while the increment runs is in Model/LimiterLease; that obtaining one fails is here.
-/
namespace Willow.LimConc
open Willow.Assoc Willow.OTM Willow.Limiter

variable {K : Type}

/-- sort.Strings, as an insertion sort. -/
def insertKey (k : GoString) : List GoString → List GoString
  | [] => [k]
  | x :: l => if strLt x k then x :: insertKey k l else k :: x :: l

/-- pkg/models/datatypes/map_string_encapsulated_value.go:29-38 `SortedKeys`. -/
def sortedKeys (kvs : KVs K) : List GoString := (kvs.map (·.1)).foldr insertKey []

/-- Where an increment is. -/
inductive Phase (K : Type) where
  /-- counter_client_local.go:81-85: about to look for the limits -/
  | start
  /-- counter_client_local.go:137-168: the limits found, the keys whose locks are still to be obtained -/
  | locking (ls : List (List GoString × Int)) (todo : List GoString)
  /-- counter_client_local.go:190-217: the limits still to be checked -/
  | checking (ls : List (List GoString × Int))
  /-- counter_client_local.go:258-267: summing up the counters of one limit; the limits after this one, the ids still to be read -/
  | summing (limit : Int) (rest : List (List GoString × Int)) (ids : List Nat) (acc : Int)
  /-- counter_client_local.go:220-232: all limits passed, or there was none to check (then no locks are held) -/
  | adding (locked : Bool)
  /-- counter_client_local.go:128-135: the deferred release of the locks, the keys whose locks are still held, the answer -/
  | releasing (todo : List GoString) (out : Out K)
  /-- counter_client_local.go:234 and the other returns -/
  | done (out : Out K)

/-- A request to increment a counter (`c` is positive), with the random orders of map iterations. -/
structure Req (K : Type) where
  kvs : KVs K
  c : Int
  ch : Choice K

/-- A running request. -/
structure Thread (K : Type) where
  req : Req K
  phase : Phase K

/-- The locks (single key-value pairs) an increment holds: counter_client_local.go:127-166. -/
def Thread.held (t : Thread K) : KVs K :=
  match t.phase with
  | .start | .done _ | .adding false => []
  | .locking _ todo => t.req.kvs.filter (fun kv => !todo.contains kv.1)
  | .checking _ | .summing .. | .adding true => t.req.kvs
  | .releasing todo _ => t.req.kvs.filter (fun kv => todo.contains kv.1)

/-- The limiter and the running increments. -/
structure Sys (K : Type) where
  st : State K
  threads : List (Thread K)

section
variable [KeyOps K]

/-- The same single key-value pair, hence the same lock (see C27: the locker tells locks apart by their key-values). -/
def sameLock (a b : GoString × K) : Bool := a.1 == b.1 && !KeyOps.lt a.2 b.2 && !KeyOps.lt b.2 a.2

/-- The lock an increment asks for next: counter_client_local.go:138-154. -/
def Thread.wants (t : Thread K) : KVs K :=
  match t.phase with
  | .locking _ (k :: _) => t.req.kvs.filter (fun kv => kv.1 == k)
  | _ => []

/-- The lock an increment asks for next is not held by any increment. -/
def Free (threads : List (Thread K)) (t : Thread K) : Prop :=
  ∀ l ∈ t.wants, ∀ t' ∈ threads, ∀ h ∈ t'.held, sameLock l h = false

/-- counter_client_local.go:81-125: what follows from the limits found. -/
def afterFind (kvs : KVs K) : Option (Option (List Found)) → Option (Phase K)
  | none => none
  | some none => some (.done .internal)
  | some (some rules) =>
    if lastIsZero rules then some (.done .conflict)
    else if limited rules then some (.locking (rules.flatMap Found.limits) (sortedKeys kvs))
    else some (.adding false)

/-- counter_client_local.go:190-217 and 237-263: begin with the next limit. -/
def checkNext (st : State K) (r : Req K) : List (List GoString × Int) → Option (Phase K)
  | [] => some (.adding true)
  | (keys, limit) :: rest =>
    if limit == -1 then some (.checking rest)
    else match st.counters.queryAction (checkQuery keys r.kvs) with
      | none => none
      | some l => some (.summing limit rest ((r.ch.counters l).map (·.id)) 0)

/-- counter_client_local.go:258-276: read the next counter (skipped if it is gone, threadsafe_query.go:62-71), or the final check. -/
def sumNext (st : State K) (r : Req K) (limit : Int) (rest : List (List GoString × Int)) (acc : Int) : List Nat → Phase K
  | [] => if acc ≥ limit then .releasing (sortedKeys r.kvs) .conflict else .checking rest
  | id :: ids => match st.counters.itemById id with
    | none => .summing limit rest ids acc
    | some i => if add64 acc i.value < limit then .summing limit rest ids (add64 acc i.value) else .releasing (sortedKeys r.kvs) .conflict

/-- One step of an increment, all cited above; `none`: it is finished, or the service panics. -/
def advance (st : State K) (t : Thread K) : Option (State K × Phase K) :=
  match t.phase with
  | .start => (afterFind t.req.kvs (findLimits st t.req.ch t.req.kvs)).map (fun p => (st, p))
  | .locking ls (_ :: todo) => some (st, .locking ls todo)
  | .locking ls [] => some (st, .checking ls)
  | .checking ls => (checkNext st t.req ls).map (fun p => (st, p))
  | .summing limit rest ids acc => some (st, sumNext st t.req limit rest acc ids)
  | .adding locked => (addCounter st t.req.kvs t.req.c).map (fun r => (r.1, if locked then .releasing (sortedKeys t.req.kvs) r.2 else .done r.2))
  | .releasing (_ :: todo) out => some (st, .releasing todo out)
  | .releasing [] out => some (st, .done out)
  | .done _ => none

/-- What happens in one step. -/
inductive Label (K : Type) where
  /-- a request to increment a counter arrives -/
  | arrive (r : Req K)
  /-- another request is served -/
  | other (op : Op K)
  /-- an increment goes on -/
  | move

/-- One step of the system. -/
inductive Step : Sys K → Label K → Sys K → Prop
  | arrive (s : Sys K) (r : Req K) : Step s (.arrive r) ⟨s.st, ⟨r, .start⟩ :: s.threads⟩
  | other (s : Sys K) (op : Op K) (st' : State K) (out : Out K) : Limiter.step s.st op = some (st', out) → Step s (.other op) ⟨st', s.threads⟩
  | move (st : State K) (a b : List (Thread K)) (t : Thread K) (st' : State K) (p : Phase K) :
      Free (a ++ t :: b) t → advance st t = some (st', p) → Step ⟨st, a ++ t :: b⟩ .move ⟨st', a ++ { t with phase := p } :: b⟩
  /-- counter_client_local.go:156-159: obtaining a lock fails; the locks held so far are released, the answer is 500 -/
  | fail (st : State K) (a b : List (Thread K)) (r : Req K) (ls : List (List GoString × Int)) (todo : List GoString) :
      Step ⟨st, a ++ ⟨r, .locking ls todo⟩ :: b⟩ .move
        ⟨st, a ++ ⟨r, .releasing ((sortedKeys r.kvs).filter (fun k => !todo.contains k)) .internal⟩ :: b⟩

/-- A sequence of steps. -/
inductive Run : Sys K → List (Label K) → Sys K → Prop
  | nil (s : Sys K) : Run s [] s
  | cons {s s1 s2 : Sys K} {l : Label K} {ls : List (Label K)} : Step s l s1 → Run s1 ls s2 → Run s (l :: ls) s2

end
end Willow.LimConc
