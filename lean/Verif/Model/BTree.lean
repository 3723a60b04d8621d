import Verif.Model.DataTypes
/-
Model of internal/datastructures/btree (threadSafeBTree): sequential behaviour of one operation at a
time.  Locks are modelled separately (Verif/Model/BTreeLocks.lean).

Conventions
* A node's fixed-size arrays `keyValues[nodeSize+1]` / `children[nodeSize+2]` with the counters
  `numberOfValues` / `numberOfChildren` are modelled by the lists of the used prefixes.
* `none` is a Go panic (index out of range, nil dereference).
* Go recursion goes down the tree; the model takes a fuel argument (the height + 1 suffices, and
  the theorems show `none` never happens).
-/
namespace Willow

/-- What the tree uses of its keys: `lt` is `LessMatchType`, `less` is `Less`, `typ` is the `Type`
field (encapsulated_value.go:14-123), `any` is `datatypes.Any()`. -/
class KeyOps (K : Type) where
  lt : K → K → Bool
  less : K → K → Bool
  typ : K → Int
  any : K

namespace BTree
open KeyOps

variable {K V : Type}

/-- threadsafe_b_tree.go:37-45 `threadSafeBNode` / `keyValue`. -/
inductive Node (K V : Type) where
  | mk (kvs : List (K × V)) (children : List (Node K V))

namespace Node
/-- `bn.keyValues[0:numberOfValues]`. -/
def kvs : Node K V → List (K × V) | mk a _ => a
/-- `bn.children[0:numberOfChildren]`. -/
def children : Node K V → List (Node K V) | mk _ c => c
/-- `bn.numberOfValues`. -/
def count (t : Node K V) : Nat := t.kvs.length
/-- threadsafe_b_tree.go:172-174 `isLeaf`. -/
def isLeaf (t : Node K V) : Bool := t.children.isEmpty
/-- Length of the leftmost path; only used to choose enough fuel for the recursions. -/
def depth : Node K V → Nat
  | mk _ [] => 0
  | mk _ (c :: _) => depth c + 1
end Node

/-- threadsafe_b_tree.go:177-191: `minValues = (cap(keyValues)+1)/2 - 1` with `cap = nodeSize+1`. -/
def minValues (n : Nat) : Nat := (n + 1 + 1) / 2 - 1
/-- threadsafe_b_tree.go:194-196 `maxValues = cap(keyValues) - 1`. -/
def maxValues (n : Nat) : Nat := n + 1 - 1

section
variable [KeyOps K]

/-- The loop `for index = 0; index < numberOfValues; index++ { if !keyValues[index].key.LessMatchType(key) ... break }`
shared by create (threadsafe_create.go:116-129, 301-318), remove (threadsafe_delete.go:119-145) and find
(threadsafe_find.go:88-105): the first index whose key is not less than `key`. -/
def scan (key : K) (kvs : List (K × V)) : Nat := kvs.findIdx (fun kv => !lt kv.1 key)

/-- The test `!key.LessMatchType(keyValue.key)` made at the scan index: the key is the one of that index. -/
def hit (key : K) (kvs : List (K × V)) : Option (K × V) :=
  match kvs[scan key kvs]? with
  | some kv => if lt key kv.1 then none else some kv
  | none => none

/-! ### Create -/

/-- Result of `create`/`createOrFind` on a node: key found (with the stored item), the (mutated) node, or
the node was split and a new parent with one value and two children is returned. -/
inductive CreateRes (K V : Type) where
  | found (kv : K × V)
  | done (t : Node K V)
  | split (kv : K × V) (left right : Node K V)

/-- threadsafe_create.go:300-326 `createTreeItem` / 333-358 `createOrFindTreeItem` when the key is not present.
`onCreate = none` means that the callback returned nil.  The values from `index` on are shifted to the right
*before* the callback is called (lines 311-314 / 345-348), and `numberOfValues` is not incremented when it fails,
so the visible prefix then holds `keyValues[index]` twice and has lost its last value. -/
def leafInsert (key : K) (onCreate : Option V) (kvs : List (K × V)) : List (K × V) :=
  let i := scan key kvs
  match onCreate with
  | some v => kvs.take i ++ (key, v) :: kvs.drop i
  | none =>
    match kvs[i]? with
    | some old => kvs.take i ++ (old :: kvs.drop i).take (kvs.length - i)
    | none => kvs

/-- threadsafe_create.go:378-399 `splitLeaf` (new parent: one value, two new leaves). -/
def splitLeaf (n : Nat) (kvs : List (K × V)) : Option (CreateRes K V) :=
  let p := maxValues n / 2
  match kvs[p]? with
  | some kv => some (.split kv (.mk (kvs.take p) []) (.mk ((kvs.take (maxValues n + 1)).drop (p + 1)) []))
  | none => none

/-- threadsafe_create.go:447-477 `splitNode`. -/
def splitNode (n : Nat) (t : Node K V) : Option (CreateRes K V) :=
  let p := maxValues n / 2
  match t.kvs[p]? with
  | some kv => some (.split kv (.mk (t.kvs.take p) (t.children.take (p + 1)))
      (.mk ((t.kvs.take (maxValues n + 1)).drop (p + 1)) ((t.children.take (maxValues n + 2)).drop (p + 1))))
  | none => none

/-- threadsafe_create.go:402-436 `insertNode`: note the comparison is `Less`, not `LessMatchType`. -/
def insertNode (t : Node K V) (kv : K × V) (left right : Node K V) : Node K V :=
  let i := t.kvs.findIdx (fun x => less kv.1 x.1)
  .mk (t.kvs.take i ++ kv :: t.kvs.drop i) (t.children.take i ++ left :: right :: t.children.drop (i + 1))

/-- threadsafe_create.go:85-148 `create` (and 236-293 `createOrFind`, whose only difference is what the caller
does with a found item). -/
def create (n : Nat) (key : K) (onCreate : Option V) : Nat → Node K V → Option (CreateRes K V)
  | 0, _ => none
  | fuel + 1, t =>
    match hit key t.kvs with
    | some kv => some (.found kv)
    | none =>
      if t.isLeaf then
        let kvs' := leafInsert key onCreate t.kvs
        if kvs'.length > maxValues n then splitLeaf n kvs' else some (.done (.mk kvs' []))
      else
        let i := scan key t.kvs
        match t.children[i]? with
        | none => none
        | some c =>
          match create n key onCreate fuel c with
          | none => none
          | some (.found kv) => some (.found kv)
          | some (.done c') => some (.done (.mk t.kvs (t.children.set i c')))
          | some (.split kv l r) =>
            let t' := insertNode t kv l r
            if t'.count > maxValues n then splitNode n t' else some (.done t')

/-! ### Delete -/

/-- threadsafe_delete.go:506-528 `shiftNodeRight(0,1)` followed by writing slot 0 (rotateRight 401-408). -/
def consNode (kv : K × V) (c : Option (Node K V)) (t : Node K V) : Node K V :=
  .mk (kv :: t.kvs) (match c with | some c => c :: t.children | none => t.children)

/-- threadsafe_delete.go:348-379 `rotateLeft(i)` and 535-572 `shiftNodeLeft(0,1)`. -/
def rotateLeft (t : Node K V) (i : Nat) : Option (Node K V) :=
  match t.children[i]?, t.children[i+1]?, t.kvs[i]? with
  | some child, some right, some kv =>
    match right.kvs with
    | [] => none
    | rkv :: rkvs =>
      let child' : Node K V := .mk (child.kvs ++ [kv]) (child.children ++ right.children.take 1)
      let right' : Node K V := .mk rkvs (right.children.drop 1)
      some (.mk (t.kvs.set i rkv) ((t.children.set i child').set (i+1) right'))
  | _, _, _ => none

/-- threadsafe_delete.go:395-415 `rotateRight(i)` with `lastChild`, `lastValue`, `dropGreatest`
(threadsafe_b_tree.go:138-169). -/
def rotateRight (t : Node K V) (i : Nat) : Option (Node K V) :=
  match t.children[i]?, t.children[i-1]?, t.kvs[i-1]? with
  | some child, some left, some kv =>
    match left.kvs.getLast? with
    | none => none
    | some lkv =>
      let child' : Node K V := consNode kv left.children.getLast? child
      let left' : Node K V := .mk left.kvs.dropLast left.children.dropLast
      some (.mk (t.kvs.set (i-1) lkv) ((t.children.set i child').set (i-1) left'))
  | _, _, _ => none

/-- threadsafe_delete.go:418-499 `mergeDown(i)`: always merges into the left one of the two children. -/
def mergeDown (t : Node K V) (i : Nat) : Option (Node K V) :=
  let j := if i ≠ 0 then i - 1 else i
  match t.children[j]?, t.children[j+1]?, t.kvs[j]? with
  | some child, some right, some kv =>
    let merged : Node K V := .mk (child.kvs ++ kv :: right.kvs) (child.children ++ right.children)
    some (.mk (t.kvs.eraseIdx j) ((t.children.set j merged).eraseIdx (j+1)))
  | _, _, _ => none

/-- threadsafe_delete.go:270-334 `rebalance(i)`; the Bool is its return value. -/
def rebalance (n : Nat) (t : Node K V) (i : Nat) : Option (Node K V × Bool) :=
  let merge : Option (Node K V × Bool) :=
    match mergeDown t i with
    | some t' => some (t', decide (t'.count < minValues n))
    | none => none
  if i = 0 then
    match t.children[i]?, t.children[i+1]? with
    | some _, some right =>
      if right.count > minValues n then (rotateLeft t i).map (·, false) else merge
    | _, _ => none
  else if i = t.children.length - 1 then
    match t.children[i-1]?, t.children[i]? with
    | some left, some _ =>
      if left.count > minValues n then (rotateRight t i).map (·, false) else merge
    | _, _ => none
  else
    match t.children[i-1]?, t.children[i]?, t.children[i+1]? with
    | some left, some _, some right =>
      if right.count > minValues n then (rotateLeft t i).map (·, false)
      else if left.count > minValues n then (rotateRight t i).map (·, false)
      else merge
    | _, _, _ => none

/-- threadsafe_delete.go:213-267 `swap`: takes out the smallest or the greatest item of the subtree, depending
on how the first key of the node compares (with `Less`) to the key `sk` that is replaced.  Returns the mutated
subtree, the item taken out, and the underflow flag. -/
def swap (n : Nat) (sk : K) : Nat → Node K V → Option (Node K V × (K × V) × Bool)
  | 0, _ => none
  | fuel + 1, t =>
    match t.kvs with
    | [] => none
    | first :: rest =>
      if t.isLeaf then
        if !less first.1 sk then
          some (.mk rest [], first, decide (rest.length < minValues n))
        else
          some (.mk (first :: rest).dropLast [], (first :: rest).getLast (by simp),
            decide ((first :: rest).dropLast.length < minValues n))
      else
        let ci := if !less first.1 sk then 0 else t.children.length - 1
        match t.children[ci]? with
        | none => none
        | some c =>
          match swap n sk fuel c with
          | none => none
          | some (c', kv, under) =>
            let t' : Node K V := .mk t.kvs (t.children.set ci c')
            if under then
              match rebalance n t' ci with
              | some (t'', u) => some (t'', kv, u)
              | none => none
            else some (t', kv, false)

/-- threadsafe_delete.go:193-209 `removeNodeItem(i)`. -/
def removeNodeItem (n : Nat) (fuel : Nat) (t : Node K V) (i : Nat) : Option (Node K V × Bool) :=
  match t.children[i]?, t.children[i+1]?, t.kvs[i]? with
  | some left, some right, some kv =>
    if right.count > left.count then
      match swap n kv.1 fuel right with
      | some (c', skv, under) => some (.mk (t.kvs.set i skv) (t.children.set (i+1) c'), under)
      | none => none
    else
      match swap n kv.1 fuel left with
      | some (c', skv, under) => some (.mk (t.kvs.set i skv) (t.children.set i c'), under)
      | none => none
  | _, _, _ => none

/-- Result of `remove`: the mutated node, the returned Bool and the item (if any) for which `canDelete` was
asked (or would have been, when it is nil). -/
structure RemoveRes (K V : Type) where
  node : Node K V
  under : Bool
  asked : Option (K × V)

/-- threadsafe_delete.go:98-165 `remove` with 169-187 `removeLeafItem`.  `can kv` is the answer of the
`canDelete` callback (constantly true when the callback is nil). -/
def remove (n : Nat) (key : K) (can : K × V → Bool) : Nat → Node K V → Option (RemoveRes K V)
  | 0, _ => none
  | fuel + 1, t =>
    let i := scan key t.kvs
    match hit key t.kvs with
    | some kv =>
      if t.isLeaf then
        if can kv then
          let kvs' := t.kvs.eraseIdx i
          some ⟨.mk kvs' [], decide (kvs'.length < minValues n), some kv⟩
        else some ⟨t, false, some kv⟩
      else if can kv then
        match removeNodeItem n fuel t i with
        | none => none
        | some (t', true) =>
          match rebalance n t' i with
          | some (t'', u) => some ⟨t'', u, some kv⟩
          | none => none
        | some (t', false) => some ⟨t', false, some kv⟩
      else some ⟨t, false, some kv⟩
    | none =>
      if t.isLeaf then some ⟨t, false, none⟩
      else
        match t.children[i]? with
        | none => none
        | some c =>
          match remove n key can fuel c with
          | none => none
          | some r =>
            let t' : Node K V := .mk t.kvs (t.children.set i r.node)
            if r.under then
              match rebalance n t' i with
              | some (t'', u) => some ⟨t'', u, r.asked⟩
              | none => none
            else some ⟨t', false, r.asked⟩

/-! ### The tree -/

/-- threadsafe_b_tree.go:17-34 (locks and destroying flags left out). -/
structure Tree (K V : Type) where
  nodeSize : Nat
  root : Option (Node K V)

/-- threadsafe_b_tree.go:64-85 `NewThreadSafe` (the upper bound on nodeSize is left out). -/
def newTree (K V : Type) (n : Nat) : Option (Tree K V) := if n ≤ 1 then none else some ⟨n, none⟩

/-- threadsafe_b_tree.go:91-96 `Empty`. -/
def Tree.empty (b : Tree K V) : Bool := b.root.isNone

/-- What a create call does: found an item / ran onCreate. -/
inductive CreateOut (K V : Type) where
  | found (kv : K × V)
  | created

/-- threadsafe_create.go:50-64 (`Create`) and 212-221 (`CreateOrFind`): an empty root node is installed before the
recursion; on a found key the tree keeps it. -/
def Tree.create (b : Tree K V) (key : K) (onCreate : Option V) : Option (Tree K V × CreateOut K V) :=
  let r : Node K V := match b.root with | some r => r | none => .mk [] []
  match BTree.create b.nodeSize key onCreate (r.depth + 1) r with
  | none => none
  | some (.found kv) => some ({ b with root := some r }, .found kv)
  | some (.done t) => some ({ b with root := some t }, .created)
  | some (.split kv l rt) => some ({ b with root := some (.mk [kv] [l, rt]) }, .created)

/-- threadsafe_delete.go:76-95 `delete`: the returned option is the item `canDelete` was asked for. -/
def Tree.delete (b : Tree K V) (key : K) (can : K × V → Bool) : Option (Tree K V × Option (K × V)) :=
  match b.root with
  | none => some (b, none)
  | some r =>
    match BTree.remove b.nodeSize key can (r.depth + 1) r with
    | none => none
    | some res =>
      if res.under && res.node.count == 0 then some ({ b with root := res.node.children[0]? }, res.asked)
      else some ({ b with root := some res.node }, res.asked)

/-! ### Find -/

/-- threadsafe_find.go:87-120 `findMatchType`: the item passed to the callback, if any. -/
def findMatchType (key : K) : Nat → Node K V → Option (Option (K × V))
  | 0, _ => none
  | fuel + 1, t =>
    match hit key t.kvs with
    | some kv => some (some kv)
    | none =>
      if t.isLeaf then some none
      else
        match t.children[scan key t.kvs]? with
        | some c => findMatchType key fuel c
        | none => none

/-- The exact lookup used by `Find` on the whole tree. -/
def Tree.lookup (b : Tree K V) (key : K) : Option (Option (K × V)) :=
  match b.root with
  | none => some none
  | some r => findMatchType key (r.depth + 1) r

/-- threadsafe_create.go:192-202 + 212-221 `CreateOrFind`: first a read-only find, then createOrFind. -/
def Tree.createOrFind (b : Tree K V) (key : K) (onCreate : Option V) : Option (Tree K V × CreateOut K V) :=
  match b.lookup key with
  | none => none
  | some (some kv) => some (b, .found kv)
  | some none => b.create key onCreate

/-- A stateful iteration callback; the Bool says whether to continue. -/
abbrev Callback (K V S : Type) := S → K → V → S × Bool

/-- What one turn of a range-find loop does with the current item. -/
inductive Turn where
  /-- `continue` without looking at the item. -/
  | skip
  /-- `break`. -/
  | stop
  /-- remember child `index`, call the callback. -/
  | visitWithChild
  /-- call the callback only. -/
  | visit
  /-- call the callback, then `break`. -/
  | visitAndStop
deriving DecidableEq

/-- threadsafe_find.go:126-155, one turn of the loop of `iterate`. -/
def turnIterate (lo hi : Int) (k : K) : Turn :=
  if typ k < lo then .skip else if hi < typ k then .stop else .visitWithChild
/-- threadsafe_find.go:285-320, one turn of `findLessThan`. -/
def turnLessThan (key : K) (lo : Int) (k : K) : Turn :=
  if typ k < lo then .skip else if typ key < typ k then .stop
  else if lt k key then .visitWithChild else .stop
/-- threadsafe_find.go:409-459, one turn of `findLessThanOrEqual`. -/
def turnLessThanOrEqual (key : K) (lo : Int) (k : K) : Turn :=
  if typ k < lo then .skip else if typ key < typ k then .stop
  else if lt k key then .visitWithChild else if !lt key k then .visitAndStop else .stop
/-- threadsafe_find.go:528-563, one turn of `findGreaterThan`. -/
def turnGreaterThan (key : K) (hi : Int) (k : K) : Turn :=
  if hi < typ k then .stop else if lt k key then .skip else if lt key k then .visitWithChild else .skip
/-- threadsafe_find.go:632-682, one turn of `findGreaterThanOrEqual`. -/
def turnGreaterThanOrEqual (key : K) (hi : Int) (k : K) : Turn :=
  if hi < typ k then .stop else if lt k key then .skip else if lt key k then .visitWithChild else .visit

end

/-- The loop over the values of one node shared by the range finds (threadsafe_find.go:126-155, 285-320, 409-459,
528-563, 632-682).  Returns the callback state, the indices of the remembered children and the index
the loop ended with, or `inr` when the callback asked to stop. -/
def scanLoop {S : Type} (turn : K → Turn) (cb : Callback K V S) :
    List (K × V) → Nat → List Nat → S → (S × List Nat × Nat) ⊕ S
  | [], i, acc, s => .inl (s, acc, i)
  | kv :: rest, i, acc, s =>
    match turn kv.1 with
    | .skip => scanLoop turn cb rest (i+1) acc s
    | .stop => .inl (s, acc, i)
    | .visitWithChild =>
      match cb s kv.1 kv.2 with
      | (s', true) => scanLoop turn cb rest (i+1) (acc ++ [i]) s'
      | (s', false) => .inr s'
    | .visit =>
      match cb s kv.1 kv.2 with
      | (s', true) => scanLoop turn cb rest (i+1) acc s'
      | (s', false) => .inr s'
    | .visitAndStop =>
      match cb s kv.1 kv.2 with
      | (s', true) => .inl (s', acc, i)
      | (s', false) => .inr s'

/-- The loop over the remembered children (threadsafe_find.go:167-176, 333-342, 471-480, 575-584, 694-703). -/
def visitChildren {S : Type} (f : Node K V → S → Option (S × Bool)) (cs : List (Node K V)) :
    List Nat → S → Option (S × Bool)
  | [], s => some (s, true)
  | i :: is, s =>
    match cs[i]? with
    | none => none
    | some c =>
      match f c s with
      | none => none
      | some (s', false) => some (s', false)
      | some (s', true) => visitChildren f cs is s'

/-- The range finds (threadsafe_find.go:122-179 `iterate`, 281-346, 405-483, 522-587, 626-706): loop over the
values of the node, then recurse into the remembered children and the child at the index the loop ended with.
The Bool is the return value (false: the callback asked to stop). -/
def rangeFind {S : Type} (turn : K → Turn) (cb : Callback K V S) : Nat → Node K V → S → Option (S × Bool)
  | 0, _, _ => none
  | fuel + 1, t, s =>
    match scanLoop turn cb t.kvs 0 [] s with
    | .inr s' => some (s', false)
    | .inl (s', acc, i) =>
      if t.isLeaf then some (s', true)
      else visitChildren (fun c s => rangeFind turn cb fuel c s) t.children (acc ++ [i]) s'

section
variable [KeyOps K] {S : Type}

/-- `findMatchType(datatypes.Any(), func(item) { _ = onIterate(datatypes.Any(), item) })`
(threadsafe_find.go:66-68, 268-270, 392-394). -/
def findAny (cb : Callback K V S) (r : Node K V) (s : S) : Option S :=
  match findMatchType (any : K) (r.depth + 1) r with
  | none => none
  | some none => some s
  | some (some kv) => some (cb s any kv.2).1

/-- threadsafe_find.go:18-85 `Find` (after validation and destroy checks). -/
def Tree.find (b : Tree K V) (key : K) (tr : TypeRestrictions) (cb : Callback K V S) (s : S) : Option S :=
  match b.root with
  | none => some s
  | some r =>
    if DataType.isGeneral (typ key) then
      let step1 : Option (S × Bool) :=
        if ¬ typ key < tr.lo ∧ ¬ tr.hi < typ key then
          match findMatchType key (r.depth + 1) r with
          | none => none
          | some none => some (s, true)
          | some (some kv) => some (cb s key kv.2)
        else some (s, true)
      match step1 with
      | none => none
      | some (s', cont) => if cont ∧ tr.hi = DataType.any then findAny cb r s' else some s'
    else if DataType.isAny (typ key) then
      (rangeFind (turnIterate tr.lo tr.hi) cb (r.depth + 1) r s).map (·.1)
    else some s

/-- threadsafe_find.go:182-222 `FindNotEqual`. -/
def Tree.findNotEqual (b : Tree K V) (key : K) (tr : TypeRestrictions) (cb : Callback K V S) (s : S) : Option S :=
  match b.root with
  | none => some s
  | some r =>
    (rangeFind (turnIterate tr.lo tr.hi)
      (fun s k v => if !lt key k && !lt k key then (s, true) else cb s k v) (r.depth + 1) r s).map (·.1)

/-- The common shape of `FindLessThan` (threadsafe_find.go:225-279) and `FindLessThanOrEqual` (349-403). -/
def Tree.findBelow (turn : K → Turn) (b : Tree K V) (key : K) (tr : TypeRestrictions) (cb : Callback K V S) (s : S) : Option S :=
  match b.root with
  | none => some s
  | some r =>
    let step1 : Option (S × Bool) :=
      if ¬ typ key < tr.lo then rangeFind turn cb (r.depth + 1) r s else some (s, true)
    match step1 with
    | none => none
    | some (s', cont) => if cont ∧ tr.hi = DataType.any then findAny cb r s' else some s'

/-- threadsafe_find.go:225-279 `FindLessThan`. -/
def Tree.findLessThan (b : Tree K V) (key : K) (tr : TypeRestrictions) (cb : Callback K V S) (s : S) : Option S :=
  b.findBelow (turnLessThan key tr.lo) key tr cb s
/-- threadsafe_find.go:349-403 `FindLessThanOrEqual`. -/
def Tree.findLessThanOrEqual (b : Tree K V) (key : K) (tr : TypeRestrictions) (cb : Callback K V S) (s : S) : Option S :=
  b.findBelow (turnLessThanOrEqual key tr.lo) key tr cb s

/-- The common shape of `FindGreaterThan` (threadsafe_find.go:486-520) and `FindGreaterThanOrEqual` (590-624). -/
def Tree.findAbove (turn : K → Turn) (b : Tree K V) (key : K) (tr : TypeRestrictions) (cb : Callback K V S) (s : S) : Option S :=
  match b.root with
  | none => some s
  | some r => if ¬ tr.hi < typ key then (rangeFind turn cb (r.depth + 1) r s).map (·.1) else some s

/-- threadsafe_find.go:486-520 `FindGreaterThan`. -/
def Tree.findGreaterThan (b : Tree K V) (key : K) (tr : TypeRestrictions) (cb : Callback K V S) (s : S) : Option S :=
  b.findAbove (turnGreaterThan key tr.hi) key tr cb s
/-- threadsafe_find.go:590-624 `FindGreaterThanOrEqual`. -/
def Tree.findGreaterThanOrEqual (b : Tree K V) (key : K) (tr : TypeRestrictions) (cb : Callback K V S) (s : S) : Option S :=
  b.findAbove (turnGreaterThanOrEqual key tr.hi) key tr cb s

/-! ### DestroyAll -/

mutual
/-- threadsafe_destroy.go:126-139 `iterateDestroy`: the keys of the node, then those of its children. -/
def keysOf : Node K V → List K
  | .mk kvs cs => kvs.map (·.1) ++ keysOfList cs
/-- The loop over the children (threadsafe_destroy.go:136-138). -/
def keysOfList : List (Node K V) → List K
  | [] => []
  | c :: cs => keysOf c ++ keysOfList cs
end

/-- threadsafe_destroy.go:107-120: delete the collected keys one by one with a stateful callback; stops after the
first refusal.  Dereferencing a nil root is a panic (`none`). -/
def destroyLoop (can : S → K → V → S × Bool) : List K → Tree K V → S → Option (Tree K V × S)
  | [], b, s => some (b, s)
  | key :: keys, b, s =>
    match b.root with
    | none => none
    | some r =>
      match BTree.remove b.nodeSize key (fun kv => (can s kv.1 kv.2).2) (r.depth + 1) r with
      | none => none
      | some res =>
        let b' : Tree K V :=
          if res.under && res.node.count == 0 then { b with root := res.node.children[0]? }
          else { b with root := some res.node }
        match res.asked with
        | none => destroyLoop can keys b' s
        | some kv =>
          let s' := (can s kv.1 kv.2).1
          if (can s kv.1 kv.2).2 then destroyLoop can keys b' s' else some (b', s')

/-- threadsafe_destroy.go:75-124 `DestroyAll` (the destroying flag and the wait for running operations left out). -/
def Tree.destroyAll (b : Tree K V) (can : S → K → V → S × Bool) (s : S) : Option (Tree K V × S) :=
  match b.root with
  | none => some (b, s)
  | some r => destroyLoop can (keysOf r) b s

end

end BTree
end Willow
