import Verif.Model.BTree
import Verif.Spec.DataTypes
/-
Specification vocabulary for the ordered tree: usable keys, contents, balance, the abstract map, and
what it means for a callback to be run over a list of items.
-/
namespace Willow

/-- Key values as the tree uses them (a failing comparison would be a panic; for well-formed values it
never fails, see C04). -/
instance : KeyOps EncapsulatedValue where
  lt a b := EncapsulatedValue.lessMatchType a b == some true
  less a b := EncapsulatedValue.less a b == some true
  typ := EncapsulatedValue.type
  any := ⟨DataType.any, .nil⟩

/-- The keys for which the tree is a map: well-formed values (what validation accepts, C04) other than NaN (C02). -/
abbrev Key := {v : EncapsulatedValue // Spec.WellFormed v ∧ ¬ Spec.IsNaN v}

instance : KeyOps Key where
  lt a b := KeyOps.lt a.1 b.1
  less a b := KeyOps.less a.1 b.1
  typ a := a.1.type
  any := ⟨⟨DataType.any, .nil⟩, rfl, id⟩

namespace Spec
open BTree

variable {K V : Type}

mutual
/-- All items stored in a subtree (in no particular order). -/
def nodeContents : Node K V → List (K × V)
  | .mk kvs cs => kvs ++ listContents cs
/-- All items stored in some subtrees. -/
def listContents : List (Node K V) → List (K × V)
  | [] => []
  | c :: cs => nodeContents c ++ listContents cs
end

/-- All items stored in the tree. -/
def contents (b : Tree K V) : List (K × V) :=
  match b.root with
  | none => []
  | some r => nodeContents r

mutual
/-- The items of a subtree from left to right: child, value, child, value, ... -/
def inOrder : Node K V → List (K × V)
  | .mk kvs cs => weave cs kvs
/-- Children and values taken alternately. -/
def weave : List (Node K V) → List (K × V) → List (K × V)
  | [], kvs => kvs
  | c :: cs, [] => inOrder c ++ weave cs []
  | c :: cs, kv :: kvs => inOrder c ++ kv :: weave cs kvs
end

/-- Two keys are the same key: neither comes before the other. -/
def same [KeyOps K] (a b : K) : Bool := !KeyOps.lt a b && !KeyOps.lt b a

/-- Every leaf of the node is `h` levels below it, an internal node has one child more than values, no node has
more than `n` values and every node below the top one has at least `n/2`. -/
def Balanced (n : Nat) : Nat → Node K V → Prop
  | 0, t => t.children = [] ∧ t.kvs.length ≤ n
  | h + 1, t => t.children.length = t.kvs.length + 1 ∧ t.kvs.length ≤ n ∧
      ∀ c ∈ t.children, Balanced n h c ∧ n / 2 ≤ c.count

/-! ### The abstract map -/

/-- Operations of a client of the tree.  `create` callbacks succeed here (failing ones: C08); `delete` carries the
answer of the `canDelete` callback per item, or `none` for a nil callback. -/
inductive Op (K V : Type) where
  | create (k : K) (v : V)
  | createOrFind (k : K) (v : V)
  | find (k : K)
  | delete (k : K) (can : Option (K × V → Bool))

/-- What the client observes. -/
inductive Out (K V : Type) where
  /-- `Create`: true = created, false = key already exists error. -/
  | create (ok : Bool)
  /-- `CreateOrFind`: the item given to onFind, if it was called. -/
  | createOrFind (found : Option V)
  /-- exact `Find`: the item given to the callback, if it was called. -/
  | find (found : Option V)
  /-- `Delete`: the key and item given to canDelete, if it was called. -/
  | delete (asked : Option (K × V))
deriving DecidableEq

/-- The abstract map: for a key, the stored key and item. -/
abbrev Map (K V : Type) := K → Option (K × V)

/-- `m` with `(k, v)` stored. -/
def Map.put [KeyOps K] (m : Map K V) (k : K) (v : V) : Map K V := fun k' => if same k k' then some (k, v) else m k'
/-- `m` without `k`. -/
def Map.del [KeyOps K] (m : Map K V) (k : K) : Map K V := fun k' => if same k k' then none else m k'

/-- One operation on the abstract map. -/
def mapStep [KeyOps K] (m : Map K V) : Op K V → Map K V × Out K V
  | .create k v => match m k with
    | some _ => (m, .create false)
    | none => (m.put k v, .create true)
  | .createOrFind k v => match m k with
    | some kv => (m, .createOrFind (some kv.2))
    | none => (m.put k v, .createOrFind none)
  | .find k => (m, .find ((m k).map (·.2)))
  | .delete k can => match m k, can with
    | some kv, some f => if f kv then (m.del k, .delete (some kv)) else (m, .delete (some kv))
    | some _, none => (m.del k, .delete none)
    | none, _ => (m, .delete none)

/-- A history on the abstract map. -/
def mapRun [KeyOps K] (m : Map K V) : List (Op K V) → Map K V × List (Out K V)
  | [] => (m, [])
  | op :: ops =>
    let r := mapStep m op
    let rest := mapRun r.1 ops
    (rest.1, r.2 :: rest.2)

/-- The answer of a possibly absent `canDelete` callback. -/
def answer : Option (K × V → Bool) → K × V → Bool
  | some f, kv => f kv
  | none, _ => true

/-- One operation on the tree (`none` = the service panics). -/
def treeStep [KeyOps K] (b : Tree K V) : Op K V → Option (Tree K V × Out K V)
  | .create k v => match b.create k (some v) with
    | some (b', .created) => some (b', .create true)
    | some (b', .found _) => some (b', .create false)
    | none => none
  | .createOrFind k v => match b.createOrFind k (some v) with
    | some (b', .created) => some (b', .createOrFind none)
    | some (b', .found kv) => some (b', .createOrFind (some kv.2))
    | none => none
  | .find k => (b.find k ⟨KeyOps.typ k, KeyOps.typ k⟩ (fun _ _ v => (some v, false)) none).map (fun s => (b, .find s))
  | .delete k can => match b.delete k (answer can) with
    | some (b', asked) => some (b', .delete (if can.isSome then asked else none))
    | none => none

/-- A history on the tree. -/
def treeRun [KeyOps K] (b : Tree K V) : List (Op K V) → Option (Tree K V × List (Out K V))
  | [] => some (b, [])
  | op :: ops =>
    match treeStep b op with
    | none => none
    | some (b', o) =>
      match treeRun b' ops with
      | none => none
      | some (b'', os) => some (b'', o :: os)

/-- The trees a client can obtain: from an empty tree of node size at least two, by any history. -/
def Reachable [KeyOps K] (b : Tree K V) : Prop :=
  ∃ n b0 ops outs, newTree K V n = some b0 ∧ treeRun b0 ops = some (b, outs)

/-! ### Running callbacks -/

/-- Call the callback on the items one after the other, until it says stop. -/
def visitAll {S : Type} (cb : Callback K V S) : List (K × V) → S → S × Bool
  | [], s => (s, true)
  | kv :: kvs, s =>
    match cb s kv.1 kv.2 with
    | (s', true) => visitAll cb kvs s'
    | (s', false) => (s', false)

/-- Delete the items one after the other until the callback refuses; returns the callback state and what is left. -/
def destroyUntil {S : Type} (can : S → K → V → S × Bool) : List (K × V) → S → S × List (K × V)
  | [], s => (s, [])
  | kv :: kvs, s =>
    match can s kv.1 kv.2 with
    | (s', true) => destroyUntil can kvs s'
    | (s', false) => (s', kv :: kvs)

end Spec
end Willow

namespace Willow.Spec
open BTree

/-- The type of the key lies inside the type restriction. -/
def within (tr : TypeRestrictions) (k : Key) : Bool := decide (tr.lo ≤ k.1.type) && decide (k.1.type ≤ tr.hi)

/-- The key is the wildcard `any`. -/
def isAny (k : Key) : Bool := decide (k.1.type = DataType.any)

/-- A traversal as a client sees it: it runs a callback over the tree, starting from some client state. -/
abbrev Traversal (K V : Type) := ∀ S : Type, Callback K V S → S → Option S

/-- The traversal calls the callback on exactly the items `items`, each once, in some order that does not depend on
the callback, until the callback says stop. -/
def Visits {K V : Type} (t : Traversal K V) (items : List (K × V)) : Prop :=
  ∃ order : List (K × V), order.Perm items ∧ ∀ (S : Type) (cb : Callback K V S) (s : S), t S cb s = some (visitAll cb order s).1

/-- A callback that also records every call and the answer it gave. -/
def traced {K V S : Type} (cb : Callback K V S) : Callback K V (S × List ((K × V) × Bool)) :=
  fun s k v => (((cb s.1 k v).1, s.2 ++ [((k, v), (cb s.1 k v).2)]), (cb s.1 k v).2)

/-- After an answer `false` there is no further call; the calls made are a prefix of those a callback that
never stops gets; and if no call was answered `false` they are all of them. -/
def StopsWhenTold {K V : Type} (t : Traversal K V) : Prop :=
  ∃ all : List (K × V),
    (∀ (S : Type) (cb : Callback K V S) (s : S), (∀ s k v, (cb s k v).2 = true) →
      ∃ s' log, t _ (traced cb) (s, []) = some (s', log) ∧ log.map (·.1) = all) ∧
    (∀ (S : Type) (cb : Callback K V S) (s : S),
      ∃ s' log, t _ (traced cb) (s, []) = some (s', log) ∧ log.map (·.1) <+: all ∧
        (∀ pre kv post, log = pre ++ (kv, false) :: post → post = []) ∧
        ((∀ c ∈ log, c.2 = true) → log.map (·.1) = all))

end Willow.Spec
