import Verif.Model.BTree
/-
Model of the read locks taken by the find operations of internal/datastructures/btree/threadsafe_find.go: the same
traversals as in Verif/Model/BTree.lean, with the lock calls in the order in which the code makes them.

A lock state counts the read locks this call holds on the tree (`none`) and on the node at each path (`some path`,
the path being the child indices from the root).  `RUnlock` of a lock that is not held is a fatal error in Go and
`none` here.
-/
namespace Willow.BTree
open KeyOps

/-- The tree lock, or the lock of the node at a path. -/
abbrev LockId := Option (List Nat)
/-- How often each lock is read-held. -/
abbrev Locks := LockId → Nat

/-- `lock.RLock()`. -/
def rlock (x : LockId) (L : Locks) : Locks := fun y => if y = x then L y + 1 else L y
/-- `lock.RUnlock()`. -/
def runlock (x : LockId) (L : Locks) : Option Locks :=
  if L x = 0 then none else some (fun y => if y = x then L y - 1 else L y)
/-- `for ... { children[i].lock.RUnlock() }`. -/
def runlockAll (path : List Nat) : List Nat → Locks → Option Locks
  | [], L => some L
  | i :: is, L => match runlock (some (path ++ [i])) L with
    | none => none
    | some L' => runlockAll path is L'

variable {K V : Type} {S : Type}

/-- The node loop of the range finds with its locks (threadsafe_find.go:126-155, 285-320, 409-459, 528-563, 632-682):
a remembered child is read-locked before the callback; when the callback says stop all remembered
children and the node are unlocked. -/
def scanLoopL (turn : K → Turn) (cb : Callback K V S) (leaf : Bool) (path : List Nat) :
    List (K × V) → Nat → List Nat → S → Locks → Option ((S × List Nat × Nat × Locks) ⊕ (S × Locks))
  | [], i, acc, s, L => some (.inl (s, acc, i, L))
  | kv :: rest, i, acc, s, L =>
    let abort (acc : List Nat) (s : S) (L : Locks) : Option ((S × List Nat × Nat × Locks) ⊕ (S × Locks)) :=
      match runlockAll path acc L with
      | none => none
      | some L1 => match runlock (some path) L1 with
        | none => none
        | some L2 => some (.inr (s, L2))
    match turn kv.1 with
    | .skip => scanLoopL turn cb leaf path rest (i+1) acc s L
    | .stop => some (.inl (s, acc, i, L))
    | .visitWithChild =>
      let L1 := if leaf then L else rlock (some (path ++ [i])) L
      let acc1 := if leaf then acc else acc ++ [i]
      match cb s kv.1 kv.2 with
      | (s', true) => scanLoopL turn cb leaf path rest (i+1) acc1 s' L1
      | (s', false) => abort acc1 s' L1
    | .visit =>
      match cb s kv.1 kv.2 with
      | (s', true) => scanLoopL turn cb leaf path rest (i+1) acc s' L
      | (s', false) => abort acc s' L
    | .visitAndStop =>
      match cb s kv.1 kv.2 with
      | (s', true) => some (.inl (s', acc, i, L))
      | (s', false) => abort acc s' L

/-- The indices of the children that are unlocked when the traversal stops in the `i`-th remembered child.
findLessThan, findLessThanOrEqual, findGreaterThan and findGreaterThanOrEqual (threadsafe_find.go:336, 474, 578, 697)
unlock the remaining remembered ones: `children[unlockIndex]`. -/
def restRemembered (remembered : List Nat) (i : Nat) : List Nat := remembered.drop (i + 1)
/-- iterate (threadsafe_find.go:170-172) unlocks `bn.children[unlockIndex]` instead: children of the node, not of
the remembered list. -/
def restIterate (remembered : List Nat) (i : Nat) : List Nat := List.range' (i + 1) (remembered.length - (i + 1))

/-- The loop over the remembered children (threadsafe_find.go:167-176 and its four copies). -/
def visitChildrenL (rest : Nat → List Nat) (path : List Nat)
    (f : List Nat → Node K V → S → Locks → Option (S × Bool × Locks)) (cs : List (Node K V)) :
    Nat → List Nat → S → Locks → Option (S × Bool × Locks)
  | _, [], s, L => some (s, true, L)
  | j, i :: is, s, L =>
    match cs[i]? with
    | none => none
    | some c =>
      match f (path ++ [i]) c s L with
      | none => none
      | some (s', false, L') => match runlockAll path (rest j) L' with
        | none => none
        | some L'' => some (s', false, L'')
      | some (s', true, L') => visitChildrenL rest path f cs (j+1) is s' L'

/-- The range finds with their locks (threadsafe_find.go:122-179, 281-346, 405-483, 522-587, 626-706); the node
itself has been read-locked by the caller. -/
def rangeFindL (restOf : List Nat → Nat → List Nat) (turn : K → Turn) (cb : Callback K V S) :
    Nat → List Nat → Node K V → S → Locks → Option (S × Bool × Locks)
  | 0, _, _, _, _ => none
  | fuel + 1, path, t, s, L =>
    match scanLoopL turn cb t.isLeaf path t.kvs 0 [] s L with
    | none => none
    | some (.inr (s', L')) => some (s', false, L')
    | some (.inl (s', acc, i, L')) =>
      if t.isLeaf then
        match runlock (some path) L' with
        | none => none
        | some L1 => some (s', true, L1)
      else
        match runlock (some path) (rlock (some (path ++ [i])) L') with
        | none => none
        | some L1 => visitChildrenL (restOf (acc ++ [i])) path (fun p c s L => rangeFindL restOf turn cb fuel p c s L) t.children 0 (acc ++ [i]) s' L1

section
variable [KeyOps K]

/-- threadsafe_find.go:87-120 `findMatchType` with its locks: hand over hand; the callback runs while the node is
still locked. -/
def findMatchTypeL (key : K) (cb : V → S → S × Bool) : Nat → List Nat → Node K V → S → Locks → Option (S × Bool × Locks)
  | 0, _, _, _, _ => none
  | fuel + 1, path, t, s, L =>
    match hit key t.kvs with
    | some kv =>
      let r := cb kv.2 s
      match runlock (some path) L with
      | none => none
      | some L' => some (r.1, r.2, L')
    | none =>
      if t.isLeaf then
        match runlock (some path) L with
        | none => none
        | some L' => some (s, true, L')
      else
        match t.children[scan key t.kvs]? with
        | some c =>
          match runlock (some path) (rlock (some (path ++ [scan key t.kvs])) L) with
          | none => none
          | some L' => findMatchTypeL key cb fuel (path ++ [scan key t.kvs]) c s L'
        | none => none

/-- threadsafe_find.go:59-71 (and 261-273, 385-397): the search for the any item and the release of the tree lock. -/
def anyPartL (r : Node K V) (tr : TypeRestrictions) (cb : Callback K V S) (s : S) (cont : Bool) (L : Locks) : Option (S × Locks) :=
  if cont ∧ tr.hi = DataType.any then
    match runlock none (rlock (some []) L) with
    | none => none
    | some L1 =>
      match findMatchTypeL (any : K) (fun v s => cb s any v) (r.depth + 1) [] r s L1 with
      | none => none
      | some (s', _, L') => some (s', L')
  else if tr.hi = DataType.any then
    match runlock none L with
    | none => none
    | some L1 => some (s, L1)
  else some (s, L)

/-- threadsafe_find.go:18-85 `Find` with its locks. -/
def Tree.findL (b : Tree K V) (key : K) (tr : TypeRestrictions) (cb : Callback K V S) (s : S) (L : Locks) : Option (S × Locks) :=
  let L := rlock none L
  match b.root with
  | none => match runlock none L with
    | none => none
    | some L' => some (s, L')
  | some r =>
    if DataType.isGeneral (typ key) then
      if ¬ typ key < tr.lo ∧ ¬ tr.hi < typ key then
        let L1 := rlock (some []) L
        match (if tr.hi < DataType.any then runlock none L1 else some L1) with
        | none => none
        | some L2 =>
          match findMatchTypeL key (fun v s => cb s key v) (r.depth + 1) [] r s L2 with
          | none => none
          | some (s', cont, L3) => anyPartL r tr cb s' cont L3
      else anyPartL r tr cb s true L
    else if DataType.isAny (typ key) then
      match runlock none (rlock (some []) L) with
      | none => none
      | some L1 =>
        match rangeFindL restIterate (turnIterate tr.lo tr.hi) cb (r.depth + 1) [] r s L1 with
        | none => none
        | some (s', _, L') => some (s', L')
    else some (s, L)

/-- threadsafe_find.go:182-222 `FindNotEqual` with its locks. -/
def Tree.findNotEqualL (b : Tree K V) (key : K) (tr : TypeRestrictions) (cb : Callback K V S) (s : S) (L : Locks) : Option (S × Locks) :=
  let L := rlock none L
  match b.root with
  | none => match runlock none L with
    | none => none
    | some L' => some (s, L')
  | some r =>
    match runlock none (rlock (some []) L) with
    | none => none
    | some L1 =>
      match rangeFindL restIterate (turnIterate tr.lo tr.hi)
        (fun s k v => if !lt key k && !lt k key then (s, true) else cb s k v) (r.depth + 1) [] r s L1 with
      | none => none
      | some (s', _, L') => some (s', L')

/-- threadsafe_find.go:225-279 `FindLessThan` / 349-403 `FindLessThanOrEqual` with their locks. -/
def Tree.findBelowL (turn : K → Turn) (b : Tree K V) (key : K) (tr : TypeRestrictions) (cb : Callback K V S) (s : S) (L : Locks) : Option (S × Locks) :=
  let L := rlock none L
  match b.root with
  | none => match runlock none L with
    | none => none
    | some L' => some (s, L')
  | some r =>
    if ¬ typ key < tr.lo then
      let L1 := rlock (some []) L
      match (if tr.hi < DataType.any then runlock none L1 else some L1) with
      | none => none
      | some L2 =>
        match rangeFindL restRemembered turn cb (r.depth + 1) [] r s L2 with
        | none => none
        | some (s', cont, L3) => anyPartL r tr cb s' cont L3
    else anyPartL r tr cb s true L

/-- threadsafe_find.go:486-520 `FindGreaterThan` / 590-624 `FindGreaterThanOrEqual` with their locks. -/
def Tree.findAboveL (turn : K → Turn) (b : Tree K V) (key : K) (tr : TypeRestrictions) (cb : Callback K V S) (s : S) (L : Locks) : Option (S × Locks) :=
  let L := rlock none L
  match b.root with
  | none => match runlock none L with
    | none => none
    | some L' => some (s, L')
  | some r =>
    if ¬ tr.hi < typ key then
      match runlock none (rlock (some []) L) with
      | none => none
      | some L1 =>
        match rangeFindL restRemembered turn cb (r.depth + 1) [] r s L1 with
        | none => none
        | some (s', _, L') => some (s', L')
    else some (s, L)

/-- `FindLessThan` with locks. -/
def Tree.findLessThanL (b : Tree K V) (key : K) (tr : TypeRestrictions) (cb : Callback K V S) (s : S) (L : Locks) :=
  b.findBelowL (turnLessThan key tr.lo) key tr cb s L
/-- `FindLessThanOrEqual` with locks. -/
def Tree.findLessThanOrEqualL (b : Tree K V) (key : K) (tr : TypeRestrictions) (cb : Callback K V S) (s : S) (L : Locks) :=
  b.findBelowL (turnLessThanOrEqual key tr.lo) key tr cb s L
/-- `FindGreaterThan` with locks. -/
def Tree.findGreaterThanL (b : Tree K V) (key : K) (tr : TypeRestrictions) (cb : Callback K V S) (s : S) (L : Locks) :=
  b.findAboveL (turnGreaterThan key tr.hi) key tr cb s L
/-- `FindGreaterThanOrEqual` with locks. -/
def Tree.findGreaterThanOrEqualL (b : Tree K V) (key : K) (tr : TypeRestrictions) (cb : Callback K V S) (s : S) (L : Locks) :=
  b.findAboveL (turnGreaterThanOrEqual key tr.hi) key tr cb s L

end
end Willow.BTree
