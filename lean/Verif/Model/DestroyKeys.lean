/-
Destroy of one key of the ordered tree next to Create, CreateOrFind, exact Find, Delete and other Destroys.

/repo/internal/datastructures/btree/threadsafe_destroy.go:18-57 (Destroy), threadsafe_b_tree.go:108-124 (checkDestroyingWithKey),
threadsafe_create.go:38 and :185, threadsafe_find.go:34, threadsafe_delete.go:68 (the checks).

What is simplified: the check under the read lock, the registration and the removal under the write lock of `destroyingKeysLock` are one
step each, and so is the work on the tree itself (it is linearizable: Model/BTreeConc and C80, C100); the callbacks and their answers are
parameters of that step; the parameter checks and DestroyAll (Model/DestroyGate) are left out.  Keys are compared with Go's `==`, here
`BEq` without any law; a NaN differs from itself.
-/
namespace Willow.DestroyKeys

/-- What a call does with its key.  btree.go:60-160. -/
inductive Op (V : Type) where
  /-- Create with the value its callback returns.  threadsafe_create.go:25-71. -/
  | create (v : V)
  /-- CreateOrFind with the value its callback returns.  threadsafe_create.go:168-215. -/
  | createOrFind (v : V)
  /-- Find of exactly this key.  threadsafe_find.go:18-120. -/
  | find
  /-- Delete.  threadsafe_delete.go:58-73. -/
  | delete
  /-- Destroy.  threadsafe_destroy.go:18-57. -/
  | destroy
deriving DecidableEq, Repr

/-- What a call tells its caller: the callback and the error. -/
inductive Res (V : Type) where
  /-- nil, and no callback saw a value -/
  | nothing
  /-- nil, and the value was created -/
  | created
  /-- nil, and the callback saw this value (it was found, or offered for deletion) -/
  | saw (v : V)
  /-- nil, and the value was removed after the callback saw it -/
  | removed (v : V)
  /-- ErrorKeyAlreadyExists -/
  | alreadyThere
  /-- ErrorKeyDestroying -/
  | destroying
deriving DecidableEq, Repr

/-- Where a call is. -/
inductive Pc (V : Type) where
  /-- before the check of the keys being destroyed -/
  | start
  /-- past the check; a Destroy has registered its key -/
  | admitted
  /-- the work on the tree is done; the deferred removal of the key is still to come -/
  | worked (r : Res V)
  /-- returned -/
  | over (r : Res V)
deriving DecidableEq, Repr

/-- One call. -/
structure Call (K V : Type) where
  key : K
  op : Op V
  pc : Pc V
deriving DecidableEq, Repr

/-- The keys being destroyed, the tree as a set of pairs, the calls.  threadsafe_b_tree.go:18-40. -/
structure W (K V : Type) where
  keys : List K
  tree : List (K × V)
  calls : List (Call K V)

variable {K V : Type} [BEq K]

/-- A new tree.  threadsafe_b_tree.go:72-90. -/
def W.init : W K V := ⟨[], [], []⟩

/-- The loops `for _, value := range btree.destroyingKeys { if value == key`.  threadsafe_b_tree.go:116-120, threadsafe_destroy.go:33-38. -/
def marked (keys : List K) (k : K) : Bool := keys.any (· == k)

/-- The deferred removal: the first equal entry is overwritten with the last one, which is dropped.  threadsafe_destroy.go:43-53. -/
def unmark (keys : List K) (k : K) : List K :=
  match keys.findIdx? (· == k) with
  | none => keys
  | some i =>
      match keys.getLast? with
      | none => keys
      | some l => (keys.set i l).dropLast

/-- The work on the tree; `ok` is the answer of canDelete.  threadsafe_create.go:40-71, threadsafe_find.go:38-120,
threadsafe_delete.go:76-97, threadsafe_destroy.go:56. -/
def work (tree : List (K × V)) (k : K) (op : Op V) (ok : Bool) : List (K × V) × Res V :=
  match op, tree.find? (·.1 == k) with
  | .create v, none => (tree ++ [(k, v)], .created)
  | .create _, some _ => (tree, .alreadyThere)
  | .createOrFind v, none => (tree ++ [(k, v)], .created)
  | .createOrFind _, some p => (tree, .saw p.2)
  | .find, none => (tree, .nothing)
  | .find, some p => (tree, .saw p.2)
  | .delete, none => (tree, .nothing)
  | .delete, some p => if ok then (tree.filter (fun q => !(q.1 == k)), .removed p.2) else (tree, .saw p.2)
  | .destroy, none => (tree, .nothing)
  | .destroy, some p => if ok then (tree.filter (fun q => !(q.1 == k)), .removed p.2) else (tree, .saw p.2)

/-- What a call does first.  threadsafe_b_tree.go:113-123, threadsafe_destroy.go:31-40. -/
def enter (keys : List K) (c : Call K V) : List K × Pc V :=
  if marked keys c.key then (keys, .over .destroying)
  else match c.op with
    | .destroy => (keys ++ [c.key], .admitted)
    | _ => (keys, .admitted)

/-- What a call does last.  threadsafe_destroy.go:42-53. -/
def leave (keys : List K) (c : Call K V) : List K :=
  match c.op with
  | .destroy => unmark keys c.key
  | _ => keys

/-- One step. -/
inductive Step : W K V → W K V → Prop
  /-- A call is made.  btree.go:60-160. -/
  | call (s : W K V) (k : K) (op : Op V) : Step s { s with calls := s.calls ++ [⟨k, op, .start⟩] }
  /-- threadsafe_create.go:38, threadsafe_find.go:34, threadsafe_delete.go:68, threadsafe_destroy.go:31-40. -/
  | enter (s : W K V) (i : Nat) (c : Call K V) : s.calls[i]? = some c → c.pc = .start →
      Step s { s with keys := (enter s.keys c).1, calls := s.calls.set i { c with pc := (enter s.keys c).2 } }
  /-- threadsafe_create.go:40-71, threadsafe_find.go:38-120, threadsafe_delete.go:76-97. -/
  | work (s : W K V) (i : Nat) (c : Call K V) (ok : Bool) : s.calls[i]? = some c → c.pc = .admitted →
      Step s { s with tree := (work s.tree c.key c.op ok).1, calls := s.calls.set i { c with pc := .worked (work s.tree c.key c.op ok).2 } }
  /-- threadsafe_destroy.go:42-53. -/
  | leave (s : W K V) (i : Nat) (c : Call K V) (r : Res V) : s.calls[i]? = some c → c.pc = .worked r →
      Step s { s with keys := leave s.keys c, calls := s.calls.set i { c with pc := .over r } }

/-- Any number of steps. -/
inductive Run : W K V → W K V → Prop
  | refl (s : W K V) : Run s s
  | step {s s' s'' : W K V} : Run s s' → Step s' s'' → Run s s''

end Willow.DestroyKeys
