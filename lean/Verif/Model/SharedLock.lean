import Verif.Model.AssocConc
/-
Lock clients that several goroutines share, and the locker they talk to (pkg/clients/locker_client).

* Every client keeps its locks in an associated tree (locker_client.go:52): `Model/AssocConc`, with all interleavings of the calls of its goroutines.
* ObtainLock is a CreateOrFind in that tree whose onCreate asks the locker and waits for its answer (locker_client.go:121-208); the locker answers when nobody holds
  the lock (C25).  The pairs of the key-values are locked meanwhile (threadsafe_create.go:241-318).
* A lock object is named by its client and the number of the ObtainLock that made it.
* Release takes the lock out of the tree, then tells the locker (lock.go:156-200).
* Leases are kept: heartbeats go on until the lock is out of the tree (lock.go:165-212) and all of them arrive.  What happens otherwise is C58 and C84.
* An ObtainLock that is cancelled while it waits, or that fails, is one whose onCreate returns nil; that is decided when it is called.
-/
namespace Willow.SharedLock
open Willow.AssocConc (KVs Call Phase Thread)

variable {V : Type}

/-- A Release under way or over. -/
structure Rel where
  client : Nat
  /-- the lock object: the ObtainLock that made it -/
  obj : Nat
  /-- the call on the tree that takes it out -/
  call : Nat
  /-- the locker was told, Release has returned -/
  freed : Bool
deriving DecidableEq

/-- Clients and locker. -/
structure Sys (V : Type) where
  /-- the tree of each client -/
  tree : Nat → AssocConc.St V Nat
  /-- the lock objects the locker has granted: at most one for the same key-values (C25) -/
  held : KVs V → Option (Nat × Nat)
  rels : List Rel

/-- locker_client.go:69-82, and a new locker. -/
def Sys.init [Inhabited V] : Sys V := ⟨fun _ => AssocConc.St.init, fun _ => none, []⟩

/-- No call of a lock client destroys anything in its tree. -/
def free : (Nat → Option (AssocConc.Item V Nat)) → Nat → Nat → Bool := fun _ _ _ => false

/-- locker_client.go:125-194: the key-values of an ObtainLock that waits for the locker. -/
def waitsFor (th : Thread V Nat) : Option (KVs V) :=
  match th.phase, th.call with
  | .make _ _, .createOrFind kvs _ => some kvs
  | _, _ => none

/-- One tree changes. -/
def Sys.setTree (s : Sys V) (c : Nat) (x : AssocConc.St V Nat) : Sys V := { s with tree := fun d => if d = c then x else s.tree d }

/-- Who holds a lock changes. -/
def Sys.setHeld [DecidableEq V] (s : Sys V) (kvs : KVs V) (o : Option (Nat × Nat)) : Sys V := { s with held := fun k => if k = kvs then o else s.held k }

/-- The lock object an ObtainLock has returned (locker_client.go:196-208). -/
def gives (t : Nat) (th : Thread V Nat) : Option Nat :=
  if th.returned then
    match th.phase with
    | .done (.created _) _ => some t
    | .done (.found _ o) _ => some o
    | _ => none
  else none

/-- Somebody was given this lock object. -/
def given (x : AssocConc.St V Nat) (o : Nat) : Bool := (List.range x.threads.length).any fun t => match x.threads[t]? with
  | some th => decide (gives t th = some o)
  | none => false

/-- A call on a tree. -/
def begin (x : AssocConc.St V Nat) (c : Call V Nat) : AssocConc.St V Nat := { x with threads := x.threads ++ [⟨c, AssocConc.start c, false⟩] }

instance (kvs : KVs V) : Decidable (AssocConc.Sorted kvs) := inferInstanceAs (Decidable (kvs.Pairwise _))

/-- What can happen. -/
inductive Label (V : Type) where
  /-- ObtainLock is called (`cancel`: it will not get an answer it can use) -/
  | acquire (c : Nat) (kvs : KVs V) (cancel : Bool)
  /-- a call on the tree of a client does its next step -/
  | go (c t pick : Nat)
  /-- it returns -/
  | ret (c t : Nat)
  /-- Release of a lock object is called for the first time (lock.go:158; later calls return an error at once) -/
  | release (c o : Nat)
  /-- a Release tells the locker that the lock is free, and returns (lock.go:165-200) -/
  | free (k : Nat)

/-- locker_client.go:120, 196: ObtainLock; a lock it makes is named by its number. -/
def obtainCall (x : AssocConc.St V Nat) (kvs : KVs V) (cancel : Bool) : Call V Nat := if cancel then .createFails kvs else .createOrFind kvs x.threads.length

/-- The call is over. -/
def over (th : Thread V Nat) : Bool :=
  match th.phase with
  | .done _ _ => true
  | _ => false

/-- One step of a call on the tree of client `c`; an ObtainLock that waits for the locker goes on when it is granted the lock. -/
def goStep [DecidableEq V] (s : Sys V) (c t pick : Nat) (th : Thread V Nat) : Option (Sys V) :=
  match waitsFor th with
  | some kvs =>
    match s.held kvs with
    | some _ => none
    | none => (AssocConc.next free (s.tree c) t pick th).map fun x => (s.setTree c x).setHeld kvs (some (c, t))
  | none => (AssocConc.next free (s.tree c) t pick th).map fun x => s.setTree c x

/-- lock.go:156-200, internal/locker: the locker frees the lock if this is the session that holds it. -/
def freeStep [DecidableEq V] (s : Sys V) (k : Nat) (r : Rel) : Option (Sys V) :=
  match (s.tree r.client).threads[r.call]? with
  | some th =>
    if over th && th.returned then
      let s' := { s with rels := s.rels.set k { r with freed := true } }
      if s.held th.call.kvs = some (r.client, r.obj) then some (s'.setHeld th.call.kvs none) else some s'
    else none
  | none => none

/-- One event. -/
def step [DecidableEq V] (s : Sys V) : Label V → Option (Sys V)
  | .acquire c kvs cancel =>
    if kvs ≠ [] ∧ AssocConc.Sorted kvs then some (s.setTree c (begin (s.tree c) (obtainCall (s.tree c) kvs cancel))) else none
  | .go c t pick => match (s.tree c).threads[t]? with
    | some th => goStep s c t pick th
    | none => none
  | .ret c t => match (s.tree c).threads[t]? with
    | some th =>
      if over th && !th.returned then some (s.setTree c { s.tree c with threads := (s.tree c).threads.set t { th with returned := true } }) else none
    | none => none
  | .release c o =>
    if given (s.tree c) o ∧ ∀ r ∈ s.rels, ¬ (r.client = c ∧ r.obj = o) then
      match (s.tree c).threads[o]? with
      | some th => some (({ s with rels := s.rels ++ [(⟨c, o, (s.tree c).threads.length, false⟩ : Rel)] } : Sys V).setTree c (begin (s.tree c) (.delete th.call.kvs fun _ => true)))
      | none => none
    else none
  | .free k => match s.rels[k]? with
    | some r => if r.freed then none else freeStep s k r
    | none => none

/-- A history. -/
def run [DecidableEq V] (s : Sys V) : List (Label V) → Option (Sys V)
  | [] => some s
  | l :: ls => (step s l).bind fun s' => run s' ls

end Willow.SharedLock
