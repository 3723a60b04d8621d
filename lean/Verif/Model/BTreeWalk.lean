import Verif.Model.BTreeConc
import Verif.Spec.BTreeWalk
/-
Model of the range searches of internal/datastructures/btree (`iterate`, `findLessThan`, `findLessThanOrEqual`, `findGreaterThan`,
`findGreaterThanOrEqual`) while any number of other calls and other range searches use the tree.

Conventions (those of Model/BTreeConc.lean, and)
* A walk holds shared locks on any number of nodes at the same time: the node it looks at and the children that it remembers.
  Such a lock is an entry of the `readers` of the node: the number of the walk and any call that begins with writing; a call of
  Model/BTreeConc.lean has no such entry (it holds exclusive locks), so that no rule for the calls takes the entry for its own.
* What a walk does to one node happens in one step, at the moment when the last of the child locks is taken; until then the
  walk holds the node shared, so that the values of the node and the number of its children are the same all the time.
  Between the first and the last child lock the real walk keeps more calls waiting than the model.
* The remembered nodes are visited in any order (the code: from left to right).
* The callback asks for more each time (what happens otherwise: C16).  One walk is one descent from the root: the second
  descent that `FindLessThan` and the others make for the key `Any` is a `Find` of that key.
-/
namespace Willow.BTreeWalk
open KeyOps BTree Spec BTreeConc

variable {K V : Type}

section
variable [KeyOps K]

/-- The loops that the range searches run over the values of a node (threadsafe_find.go:126-155, 285-320, 409-459, 528-563,
632-682), see `scanLoop` in Model/BTree.lean. -/
def turnOf : Range K → K → Turn
  | .all lo hi => turnIterate lo hi
  | .lessThan key lo => turnLessThan key lo
  | .lessThanOrEqual key lo => turnLessThanOrEqual key lo
  | .greaterThan key hi => turnGreaterThan key hi
  | .greaterThanOrEqual key hi => turnGreaterThanOrEqual key hi
end

/-- `bn.children[i].lock.RLock()` for the first of these children, if there is one (threadsafe_find.go:139, 159). -/
def lockFirst (m : Nat × Op K V) (cs : List (CNode K V)) : List (CNode K V) := (cs.take 1).map (CNode.addReader · m) ++ cs.drop 1

/-- What the loop over the values of one node visits, the children after it, and the children it had to lock
(threadsafe_find.go:126-165, 285-329, 409-468, 528-572, 632-691). -/
def walkLoop (turn : K → Turn) (m : Nat × Op K V) : List (K × V) → List (CNode K V) → List (K × V) × List (CNode K V) × List (CNode K V)
  | [], cs => ([], lockFirst m cs, cs.take 1)
  | kv :: kvs, cs =>
    let r := walkLoop turn m kvs (cs.drop 1)
    match turn kv.1 with
    | .skip => (r.1, cs.take 1 ++ r.2.1, r.2.2)
    | .stop => ([], lockFirst m cs, cs.take 1)
    | .visitWithChild => (kv :: r.1, (cs.take 1).map (CNode.addReader · m) ++ r.2.1, cs.take 1 ++ r.2.2)
    | .visit => (kv :: r.1, cs.take 1 ++ r.2.1, r.2.2)
    | .visitAndStop => ([kv], lockFirst m cs, cs.take 1)

/-- The walk looks at one of the nodes it holds (threadsafe_find.go:122-179, 281-346, 405-483, 522-587, 626-706): it visits
values, locks the children it remembers and unlocks the node.  The list is what the callback gets. -/
inductive Visit (turn : K → Turn) (m : Nat × Op K V) : CNode K V → List (K × V) → CNode K V → Prop where
  /-- The node itself. -/
  | here {w ra rb kvs cs} (hf : ∀ c ∈ (walkLoop turn m kvs cs).2.2, c.hold = none) :
      Visit turn m (.mk w (ra ++ m :: rb) kvs cs) (walkLoop turn m kvs cs).1 (.mk w (ra ++ rb) kvs (walkLoop turn m kvs cs).2.1)
  /-- A node below a child. -/
  | child {w rs kvs ca c cb vis c'} (hs : Visit turn m c vis c') :
      Visit turn m (.mk w rs kvs (ca ++ c :: cb)) vis (.mk w rs kvs (ca ++ c' :: cb))

/-- A walk: its number, the keys it asks for and what its callback got so far. -/
structure Walk (K V : Type) where
  id : Nat
  range : Range K
  seen : List (K × V)

/-- The tree with the calls (Model/BTreeConc.lean) and the walks. -/
structure W (K V : Type) where
  st : St K V
  walks : List (Walk K V)

/-- threadsafe_b_tree.go:64-85 `NewThreadSafe`. -/
def W.init : W K V := ⟨St.init, []⟩

mutual
/-- The walk holds the lock of some node. -/
def holdsNode (m : Nat) : CNode K V → Prop
  | .mk _ rs _ cs => (∃ r ∈ rs, r.1 = m ∧ startsWriting r.2 = true) ∨ holdsList m cs
/-- The same for some subtrees. -/
def holdsList (m : Nat) : List (CNode K V) → Prop
  | [] => False
  | c :: cs => holdsNode m c ∨ holdsList m cs
end

mutual
/-- The pair is stored in some node. -/
def storesNode (x : K × V) : CNode K V → Prop
  | .mk _ _ kvs cs => x ∈ kvs ∨ storesList x cs
/-- The same for some subtrees. -/
def storesList (x : K × V) : List (CNode K V) → Prop
  | [] => False
  | c :: cs => storesNode x c ∨ storesList x cs
end

/-- The pair is in the tree. -/
def W.stores (x : K × V) (w : W K V) : Prop := ∃ r, w.st.root = some r ∧ storesNode x r

/-- The walk has visited the last node and is over. -/
def W.over (w : W K V) (id : Nat) : Prop := ∀ r, w.st.root = some r → ¬ holdsNode id r

section
variable [KeyOps K]

/-- One step of the tree, the calls and the walks. -/
inductive WStep (n : Nat) : W K V → Option (Event K V) → W K V → Prop where
  /-- A step of a call. -/
  | other {s ev s' ws} (hs : BTreeConc.Step n s ev s') : WStep n ⟨s, ws⟩ ev ⟨s', ws⟩
  /-- A walk begins: `btree.lock.RLock()`, `btree.root.lock.RLock()`, `btree.lock.RUnlock()` (threadsafe_find.go:38, 75-76,
  206-209, 250-256, 374-380, 498-504, 602-608). -/
  | begin {s ws r} (id : Nat) (range : Range K) (op : Op K V) (ho : startsWriting op = true) (hh : s.hold = none) (hr : s.root = some r) (hf : r.hold = none)
      (hid : ∀ x ∈ ws, x.id ≠ id) :
      WStep n ⟨s, ws⟩ none ⟨{ s with root := some (r.addReader (id, op)) }, ⟨id, range, []⟩ :: ws⟩
  /-- The same in an empty tree (threadsafe_find.go:80-82, 216-218, 274-276). -/
  | beginEmpty {s ws} (id : Nat) (range : Range K) (hh : s.hold = none) (hr : s.root = none) (hid : ∀ x ∈ ws, x.id ≠ id) :
      WStep n ⟨s, ws⟩ none ⟨s, ⟨id, range, []⟩ :: ws⟩
  /-- A walk looks at one of the nodes it holds. -/
  | visit {s wa x wb r vis r'} (op : Op K V) (ho : startsWriting op = true) (hr : s.root = some r) (hv : Visit (turnOf x.range) (x.id, op) r vis r') :
      WStep n ⟨s, wa ++ x :: wb⟩ none ⟨{ s with root := some r' }, wa ++ { x with seen := x.seen ++ vis } :: wb⟩

/-- Any number of steps during which `P` holds all the time, with the events seen on the way. -/
inductive WRun (n : Nat) (P : W K V → Prop) (w0 : W K V) : List (Event K V) → W K V → Prop where
  | nil (h0 : P w0) : WRun n P w0 [] w0
  | step {w w' ev evs} (h : WRun n P w0 evs w) (hs : WStep n w ev w') (hp : P w') : WRun n P w0 (evs ++ ev.toList) w'

end
end Willow.BTreeWalk
