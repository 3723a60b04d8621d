import Verif.Spec.BTreeConc
/-
Model of internal/datastructures/btree with any number of calls running at the same time: the locks of the tree and
of every node, and the calls `Create`, `CreateOrFind`, exact `Find` and `Delete` as sequences of small steps.

Conventions
* A node carries the state of its `sync.RWMutex`: the call that holds it exclusively (`hold`) and the calls that hold
  it shared (`readers`).  The stack frames of a call are kept where they are: the frame of `node.create(...)` or
  `node.remove(...)` that is still running is the `hold` of that node.  A call that has gone down several levels
  without releasing the locks above (create: the node below is full, remove: it is minimal) holds a chain of nodes;
  every node of the chain but the first has `linked = true`.
* A lock is taken when it is free; waiting is the absence of a step.  Unlocking is merged with the step before it
  (releasing a lock earlier only gives the other calls more to do), and so are the locks that `insertNode`, `rotateLeft`
  and `mergeDown` take and give back at once on nodes they only move: such a step waits until they are all free.
* Everything a call does to a node happens in one step: it holds the node exclusively.
* `onCreate` returns a value here (a nil value corrupts the node, C08).  The parameter checks and the
  `destroying` flags are not modelled; neither are the range finds and DestroyAll/DestroyOne.
* Children lists are written as `ca ++ c :: cb`; `c` is `bn.children[len(ca)]`.
-/
namespace Willow.BTreeConc
open KeyOps BTree Spec

variable {K V : Type}

/-- Where the frame of a call stands on a node it holds exclusively. -/
inductive Mark (K V : Type) where
  /-- just entered (threadsafe_create.go:94, 238; threadsafe_delete.go:104). -/
  | down
  /-- waits for the recursive call on a child (threadsafe_create.go:132, 281; threadsafe_delete.go:156), or
  for `swap` on a child after the item was taken (threadsafe_delete.go:257). -/
  | inChild
  /-- `removeNodeItem(index)` waits for `swap` on a child (threadsafe_delete.go:133, 201, 206). -/
  | swapIn (index : Nat)
  /-- the same after the leaf has replaced `keyValues[index]`. -/
  | swapped (index : Nat)
  /-- `swap` has just entered; the item is the one that is deleted (threadsafe_delete.go:213). -/
  | swapDown (kv : K × V)
  /-- `swap` waits for `swap` on a child (threadsafe_delete.go:257). -/
  | inSwap (kv : K × V)
  /-- create returns the two halves of this node to the caller; the answer of the call is known. -/
  | over (out : Out K V)
  /-- remove/swap returns true: the caller has to rebalance this node; the answer of the call is known. -/
  | under (out : Out K V)

/-- An exclusive lock: the call, whether it also holds the node above, and its frame. -/
structure Hold (K V : Type) where
  id : Nat
  op : Op K V
  linked : Bool
  mark : Mark K V

/-- threadsafe_b_tree.go:37-45 `threadSafeBNode`, with the state of its lock. -/
inductive CNode (K V : Type) where
  | mk (hold : Option (Hold K V)) (readers : List (Nat × Op K V)) (kvs : List (K × V)) (children : List (CNode K V))

namespace CNode
/-- Who has the lock exclusively. -/
def hold : CNode K V → Option (Hold K V) | mk h _ _ _ => h
/-- Who has the lock shared. -/
def readers : CNode K V → List (Nat × Op K V) | mk _ r _ _ => r
/-- `bn.keyValues[0:numberOfValues]`. -/
def kvs : CNode K V → List (K × V) | mk _ _ a _ => a
/-- `bn.children[0:numberOfChildren]`. -/
def children : CNode K V → List (CNode K V) | mk _ _ _ c => c
/-- `bn.numberOfValues`. -/
def count (t : CNode K V) : Nat := t.kvs.length
/-- `lock.Lock()` would not wait. -/
def Free (t : CNode K V) : Prop := t.hold = none ∧ t.readers = []
/-- The node with its exclusive lock set to `h`. -/
def held (t : CNode K V) (h : Option (Hold K V)) : CNode K V := mk h t.readers t.kvs t.children
/-- The node with one more reader (`lock.RLock()`). -/
def addReader (t : CNode K V) (r : Nat × Op K V) : CNode K V := mk t.hold (r :: t.readers) t.kvs t.children
end CNode

/-- The key a call is about. -/
def opKey : Op K V → K
  | .create k _ => k
  | .createOrFind k _ => k
  | .find k => k
  | .delete k _ => k

/-- The test that lets a call release every lock above a node with `count` values: threadsafe_create.go:99
(`numberOfValues+1 <= maxValues`), 251 and threadsafe_delete.go:113 (`numberOfValues-1 >= minValues`). -/
def safe (n : Nat) : Op K V → Nat → Bool
  | .delete _ _, count => decide (minValues n + 1 ≤ count)
  | _, count => decide (count + 1 ≤ maxValues n)

/-- The answer of `Create` when the key exists (threadsafe_create.go:121, 310) or of `CreateOrFind` (266, 341). -/
def foundOut : Op K V → K × V → Out K V
  | .createOrFind _ _, kv => .createOrFind (some kv.2)
  | .find _, kv => .find (some kv.2)
  | _, _ => .create false
/-- The answer of a successful insertion. -/
def createdOut : Op K V → Out K V
  | .createOrFind _ _ => .createOrFind none
  | _ => .create true
/-- What `canDelete` was asked (nothing, if it is nil). -/
def askedOut (can : Option (K × V → Bool)) (kv : K × V) : Out K V := .delete (can.map (fun _ => kv))
/-- The key and value a creating call inserts. -/
def newItem : Op K V → Option (K × V)
  | .create k v => some (k, v)
  | .createOrFind k v => some (k, v)
  | _ => none

/-- threadsafe_create.go:378-399 `splitLeaf` and 447-477 `splitNode` (a leaf has no children to divide): the value
that goes up and the two new nodes.  The new nodes have new, free locks. -/
def splitHalves (n : Nat) (kvs : List (K × V)) (cs : List (CNode K V)) : Option ((K × V) × CNode K V × CNode K V) :=
  let p := maxValues n / 2
  match kvs[p]? with
  | some kv => some (kv, .mk none [] (kvs.take p) (cs.take (p + 1)),
      .mk none [] ((kvs.take (maxValues n + 1)).drop (p + 1)) ((cs.take (maxValues n + 2)).drop (p + 1)))
  | none => none

/-- What a step means for the call that makes it. -/
inductive Outcome (K V : Type) where
  /-- the call goes on. -/
  | moved
  /-- the call took effect with this answer, but still has to split or rebalance. -/
  | applied (out : Out K V)
  /-- the call, which took effect before, is done. -/
  | left (out : Out K V)
  /-- the call took effect and is done. -/
  | answered (out : Out K V)
  /-- the read-only search of `CreateOrFind` found nothing: it has to lock the tree for writing. -/
  | again

/-- The visible side of a step inside a node: which call, whether the locks of the chain from this node up are released
(`rel`), the item that `swap` hands to the node whose item is deleted, and the outcome. -/
structure Eff (K V : Type) where
  id : Nat
  op : Op K V
  rel : Bool
  swap : Option (K × V)
  outcome : Outcome K V

/-- The frame of a caller after a step of the callee: `swapNode.keyValues[swapIndex] = ...`
(threadsafe_delete.go:231, 235) has happened. -/
def nextMark (m : Mark K V) : Option (K × V) → Mark K V
  | none => m
  | some _ => match m with
    | .swapIn i => .swapped i
    | .inSwap _ => .inChild
    | m => m
/-- The values of a caller's node after a step of the callee (threadsafe_delete.go:231, 235). -/
def nextKvs (m : Mark K V) (kvs : List (K × V)) : Option (K × V) → List (K × V)
  | none => kvs
  | some x => match m with
    | .swapIn i => kvs.set i x
    | _ => kvs
/-- The item is handed on until it reaches the node whose item is deleted. -/
def nextSwap (m : Mark K V) (x : Option (K × V)) : Option (K × V) :=
  match m with
  | .swapIn _ => none
  | _ => x

/-- A frame that waits for a call on a child. -/
def Mark.waits : Mark K V → Bool
  | .inChild => true
  | .swapIn _ => true
  | .swapped _ => true
  | .inSwap _ => true
  | _ => false

/-- The index given to `rebalance` when the child at `i` underflows: after `removeNodeItem(index)` it is `index`
(threadsafe_delete.go:134), otherwise the child the call went to (159, 261). -/
def rebalanceIndex : Mark K V → Nat → Nat
  | .swapped index, _ => index
  | _, i => i

section
variable [KeyOps K]

/-- threadsafe_create.go:402-436 `insertNode`: the new values and children of the node. -/
def insertHalves (kvs : List (K × V)) (cs : List (CNode K V)) (kv : K × V) (l r : CNode K V) :
    List (K × V) × List (CNode K V) :=
  let i := kvs.findIdx (fun x => less kv.1 x.1)
  (kvs.take i ++ kv :: kvs.drop i, cs.take i ++ l :: r :: cs.drop (i + 1))

/-- One step of the call whose chain of exclusive locks begins at this node. -/
inductive CStep (n : Nat) : CNode K V → Eff K V → CNode K V → Prop where
  /-- threadsafe_create.go:112-131, 260-280 and threadsafe_delete.go:119-155: lock the child the key belongs to; it is not
  safe, so the locks above are kept. -/
  | descend {id op lk rs kvs ca c cb} (hh : hit (opKey op) kvs = none) (hi : ca.length = scan (opKey op) kvs)
      (hf : c.Free) (hs : safe n op c.count = false) :
      CStep n (.mk (some ⟨id, op, lk, .down⟩) rs kvs (ca ++ c :: cb)) ⟨id, op, false, none, .moved⟩
        (.mk (some ⟨id, op, lk, .inChild⟩) rs kvs (ca ++ c.held (some ⟨id, op, true, .down⟩) :: cb))
  /-- The same when the child is safe: `releaseParentLock()` unlocks this node and the whole chain above
  (threadsafe_create.go:93-101, 245-253; threadsafe_delete.go:106-116). -/
  | descendRelease {id op lk rs kvs ca c cb} (hh : hit (opKey op) kvs = none) (hi : ca.length = scan (opKey op) kvs)
      (hf : c.Free) (hs : safe n op c.count = true) :
      CStep n (.mk (some ⟨id, op, lk, .down⟩) rs kvs (ca ++ c :: cb)) ⟨id, op, true, none, .moved⟩
        (.mk none rs kvs (ca ++ c.held (some ⟨id, op, false, .down⟩) :: cb))
  /-- threadsafe_create.go:119-122, 264-268, 308-311, 340-343: the key exists; all deferred unlocks run. -/
  | found {id op lk rs kvs cs kv item} (hw : newItem op = some item) (hh : hit (opKey op) kvs = some kv) :
      CStep n (.mk (some ⟨id, op, lk, .down⟩) rs kvs cs) ⟨id, op, true, none, .answered (foundOut op kv)⟩
        (.mk none rs kvs cs)
  /-- threadsafe_create.go:103-115, 255-258, 300-358: the value is added to a leaf that has room for it. -/
  | insert {id op lk rs kvs item} (hw : newItem op = some item) (hh : hit (opKey op) kvs = none)
      (hn : ¬ (leafInsert item.1 (some item.2) kvs).length > maxValues n) :
      CStep n (.mk (some ⟨id, op, lk, .down⟩) rs kvs []) ⟨id, op, true, none, .answered (createdOut op)⟩
        (.mk none rs (leafInsert item.1 (some item.2) kvs) [])
  /-- The same when the leaf becomes too large: it is going to be split (threadsafe_create.go:109-111, 259-261). -/
  | insertOver {id op lk rs kvs item} (hw : newItem op = some item) (hh : hit (opKey op) kvs = none)
      (hn : (leafInsert item.1 (some item.2) kvs).length > maxValues n) :
      CStep n (.mk (some ⟨id, op, lk, .down⟩) rs kvs []) ⟨id, op, false, none, .applied (createdOut op)⟩
        (.mk (some ⟨id, op, lk, .over (createdOut op)⟩) rs (leafInsert item.1 (some item.2) kvs) [])
  /-- threadsafe_create.go:137-145, 281-287: the halves of the child replace it, and there is room for them.  `insertNode` locks
  the children it moves (threadsafe_create.go:412-417). -/
  | split {id op lk rs kvs ca c cb out kv l r} (hc : c.hold = some ⟨id, op, true, .over out⟩)
      (hf : ∀ x ∈ cb, x.Free) (hp : splitHalves n c.kvs c.children = some (kv, l, r))
      (hn : ¬ (insertHalves kvs (ca ++ c :: cb) kv l r).1.length > maxValues n) :
      CStep n (.mk (some ⟨id, op, lk, .inChild⟩) rs kvs (ca ++ c :: cb)) ⟨id, op, true, none, .left out⟩
        (.mk none rs (insertHalves kvs (ca ++ c :: cb) kv l r).1 (insertHalves kvs (ca ++ c :: cb) kv l r).2)
  /-- The same when this node becomes too large in turn (threadsafe_create.go:140-142, 284-286). -/
  | splitOver {id op lk rs kvs ca c cb out kv l r} (hc : c.hold = some ⟨id, op, true, .over out⟩)
      (hf : ∀ x ∈ cb, x.Free) (hp : splitHalves n c.kvs c.children = some (kv, l, r))
      (hn : (insertHalves kvs (ca ++ c :: cb) kv l r).1.length > maxValues n) :
      CStep n (.mk (some ⟨id, op, lk, .inChild⟩) rs kvs (ca ++ c :: cb)) ⟨id, op, false, none, .moved⟩
        (.mk (some ⟨id, op, lk, .over out⟩) rs (insertHalves kvs (ca ++ c :: cb) kv l r).1
          (insertHalves kvs (ca ++ c :: cb) kv l r).2)
  /-- threadsafe_delete.go:148-150: the key is not in the tree. -/
  | missing {id k can lk rs kvs} (hh : hit k kvs = none) :
      CStep n (.mk (some ⟨id, .delete k can, lk, .down⟩) rs kvs []) ⟨id, .delete k can, true, none, .answered (.delete none)⟩
        (.mk none rs kvs [])
  /-- threadsafe_delete.go:131, 139, 171-175: `canDelete` refuses. -/
  | refused {id k can lk rs kvs cs kv} (hh : hit k kvs = some kv) (hr : answer can kv = false) :
      CStep n (.mk (some ⟨id, .delete k can, lk, .down⟩) rs kvs cs)
        ⟨id, .delete k can, true, none, .answered (askedOut can kv)⟩ (.mk none rs kvs cs)
  /-- threadsafe_delete.go:127, 169-187 `removeLeafItem`: the leaf keeps enough values. -/
  | removeLeaf {id k can lk rs kvs kv} (hh : hit k kvs = some kv) (hr : answer can kv = true)
      (hu : ¬ (kvs.eraseIdx (scan k kvs)).length < minValues n) :
      CStep n (.mk (some ⟨id, .delete k can, lk, .down⟩) rs kvs [])
        ⟨id, .delete k can, true, none, .answered (askedOut can kv)⟩ (.mk none rs (kvs.eraseIdx (scan k kvs)) [])
  /-- The same when the leaf has too few values left: the node above has to rebalance. -/
  | removeLeafUnder {id k can lk rs kvs kv} (hh : hit k kvs = some kv) (hr : answer can kv = true)
      (hu : (kvs.eraseIdx (scan k kvs)).length < minValues n) :
      CStep n (.mk (some ⟨id, .delete k can, lk, .down⟩) rs kvs [])
        ⟨id, .delete k can, false, none, .applied (askedOut can kv)⟩
        (.mk (some ⟨id, .delete k can, lk, .under (askedOut can kv)⟩) rs (kvs.eraseIdx (scan k kvs)) [])
  /-- threadsafe_delete.go:131-134, 193-209 `removeNodeItem`: lock both children, go on with the right one. -/
  | swapRight {id k can lk rs kvs ca c d cb kv} (hh : hit k kvs = some kv) (hr : answer can kv = true)
      (hi : ca.length = scan k kvs) (hc : c.Free) (hd : d.Free) (hm : d.count > c.count) :
      CStep n (.mk (some ⟨id, .delete k can, lk, .down⟩) rs kvs (ca ++ c :: d :: cb)) ⟨id, .delete k can, false, none, .moved⟩
        (.mk (some ⟨id, .delete k can, lk, .swapIn (scan k kvs)⟩) rs kvs
          (ca ++ c :: d.held (some ⟨id, .delete k can, true, .swapDown kv⟩) :: cb))
  /-- threadsafe_delete.go:131-134, 193-197, 204-208: the same with the left one. -/
  | swapLeft {id k can lk rs kvs ca c d cb kv} (hh : hit k kvs = some kv) (hr : answer can kv = true)
      (hi : ca.length = scan k kvs) (hc : c.Free) (hd : d.Free) (hm : ¬ d.count > c.count) :
      CStep n (.mk (some ⟨id, .delete k can, lk, .down⟩) rs kvs (ca ++ c :: d :: cb)) ⟨id, .delete k can, false, none, .moved⟩
        (.mk (some ⟨id, .delete k can, lk, .swapIn (scan k kvs)⟩) rs kvs
          (ca ++ c.held (some ⟨id, .delete k can, true, .swapDown kv⟩) :: d :: cb))
  /-- threadsafe_delete.go:247-257: swap goes to the first child ... -/
  | swapFirst {id op lk rs kvs first rest c cb kv} (hk : kvs = first :: rest) (hl : less first.1 kv.1 = false) (hf : c.Free) :
      CStep n (.mk (some ⟨id, op, lk, .swapDown kv⟩) rs kvs (c :: cb)) ⟨id, op, false, none, .moved⟩
        (.mk (some ⟨id, op, lk, .inSwap kv⟩) rs kvs (c.held (some ⟨id, op, true, .swapDown kv⟩) :: cb))
  /-- ... or to the last one. -/
  | swapLast {id op lk rs kvs first rest ca c kv} (hk : kvs = first :: rest) (hl : less first.1 kv.1 = true) (hf : c.Free) :
      CStep n (.mk (some ⟨id, op, lk, .swapDown kv⟩) rs kvs (ca ++ [c])) ⟨id, op, false, none, .moved⟩
        (.mk (some ⟨id, op, lk, .inSwap kv⟩) rs kvs (ca ++ [c.held (some ⟨id, op, true, .swapDown kv⟩)]))
  /-- threadsafe_delete.go:228-232: swap on a leaf takes the first item ... -/
  | takeFirst {id k can lk rs first rest kv} (hl : less first.1 kv.1 = false) (hu : ¬ rest.length < minValues n) :
      CStep n (.mk (some ⟨id, .delete k can, lk, .swapDown kv⟩) rs (first :: rest) [])
        ⟨id, .delete k can, true, some first, .answered (askedOut can kv)⟩ (.mk none rs rest [])
  | takeFirstUnder {id k can lk rs first rest kv} (hl : less first.1 kv.1 = false) (hu : rest.length < minValues n) :
      CStep n (.mk (some ⟨id, .delete k can, lk, .swapDown kv⟩) rs (first :: rest) [])
        ⟨id, .delete k can, false, some first, .applied (askedOut can kv)⟩
        (.mk (some ⟨id, .delete k can, lk, .under (askedOut can kv)⟩) rs rest [])
  /-- threadsafe_delete.go:233-237: ... or the last one. -/
  | takeLast {id k can lk rs kvs first last kv} (h1 : (kvs ++ [last]).head? = some first) (hl : less first.1 kv.1 = true)
      (hu : ¬ kvs.length < minValues n) :
      CStep n (.mk (some ⟨id, .delete k can, lk, .swapDown kv⟩) rs (kvs ++ [last]) [])
        ⟨id, .delete k can, true, some last, .answered (askedOut can kv)⟩ (.mk none rs kvs [])
  | takeLastUnder {id k can lk rs kvs first last kv} (h1 : (kvs ++ [last]).head? = some first) (hl : less first.1 kv.1 = true)
      (hu : kvs.length < minValues n) :
      CStep n (.mk (some ⟨id, .delete k can, lk, .swapDown kv⟩) rs (kvs ++ [last]) [])
        ⟨id, .delete k can, false, some last, .applied (askedOut can kv)⟩
        (.mk (some ⟨id, .delete k can, lk, .under (askedOut can kv)⟩) rs kvs [])
  /-- threadsafe_delete.go:270-312 `rebalance` with 348-379 `rotateLeft`: the node has a right neighbour with values to
  spare.  The neighbours are locked; `rotateLeft` also locks the child it moves. -/
  | rotateLeft {id op lk mk rs ka kv kb ca c d cb out rkv rkvs} (hm : mk.waits = true)
      (hc : c.hold = some ⟨id, op, true, .under out⟩) (hi : ca.length = ka.length)
      (hx : rebalanceIndex mk ca.length = ca.length)
      (hl : ∀ b ca', ca = ca' ++ [b] → b.Free) (hd : d.Free) (hg : ∀ g gs, d.children = g :: gs → g.Free)
      (hs : d.count > minValues n) (hk : d.kvs = rkv :: rkvs) :
      CStep n (.mk (some ⟨id, op, lk, mk⟩) rs (ka ++ kv :: kb) (ca ++ c :: d :: cb)) ⟨id, op, true, none, .left out⟩
        (.mk none rs (ka ++ rkv :: kb)
          (ca ++ .mk none [] (c.kvs ++ [kv]) (c.children ++ d.children.take 1) :: .mk none [] rkvs (d.children.drop 1) :: cb))
  /-- threadsafe_delete.go:283-297, 313-320 with 395-415 `rotateRight`: the left neighbour has values to spare and the right
  one, if there is one, has not. -/
  | rotateRight {id op lk mk rs ka kv kb ca b c cb out lkv} (hm : mk.waits = true)
      (hc : c.hold = some ⟨id, op, true, .under out⟩) (hi : ca.length = ka.length)
      (hx : rebalanceIndex mk (ca.length + 1) = ca.length + 1)
      (hb : b.Free) (hd : ∀ d cb', cb = d :: cb' → d.Free ∧ ¬ d.count > minValues n)
      (hs : b.count > minValues n) (hk : b.kvs.getLast? = some lkv) :
      CStep n (.mk (some ⟨id, op, lk, mk⟩) rs (ka ++ kv :: kb) (ca ++ b :: c :: cb)) ⟨id, op, true, none, .left out⟩
        (.mk none rs (ka ++ lkv :: kb)
          (ca ++ .mk none [] b.kvs.dropLast b.children.dropLast ::
            .mk none [] (kv :: c.kvs) (b.children.getLast?.toList ++ c.children) :: cb))
  /-- threadsafe_delete.go:325-327 with 418-499 `mergeDown(i)`, `i > 0`: the node is merged into its left neighbour, and
  this node keeps enough values.  `mergeDown` locks the children it moves. -/
  | mergeLeft {id op lk mk rs ka kv kb ca b c cb out} (hm : mk.waits = true)
      (hc : c.hold = some ⟨id, op, true, .under out⟩) (hi : ca.length = ka.length)
      (hx : rebalanceIndex mk (ca.length + 1) = ca.length + 1)
      (hb : b.Free) (hd : ∀ x ∈ cb, x.Free) (hg : ∀ g ∈ c.children, g.Free)
      (hs : ¬ b.count > minValues n) (hs' : ∀ d cb', cb = d :: cb' → ¬ d.count > minValues n)
      (hu : ¬ (ka ++ kb).length < minValues n) :
      CStep n (.mk (some ⟨id, op, lk, mk⟩) rs (ka ++ kv :: kb) (ca ++ b :: c :: cb)) ⟨id, op, true, none, .left out⟩
        (.mk none rs (ka ++ kb) (ca ++ .mk none [] (b.kvs ++ kv :: c.kvs) (b.children ++ c.children) :: cb))
  | mergeLeftUnder {id op lk mk rs ka kv kb ca b c cb out} (hm : mk.waits = true)
      (hc : c.hold = some ⟨id, op, true, .under out⟩) (hi : ca.length = ka.length)
      (hx : rebalanceIndex mk (ca.length + 1) = ca.length + 1)
      (hb : b.Free) (hd : ∀ x ∈ cb, x.Free) (hg : ∀ g ∈ c.children, g.Free)
      (hs : ¬ b.count > minValues n) (hs' : ∀ d cb', cb = d :: cb' → ¬ d.count > minValues n)
      (hu : (ka ++ kb).length < minValues n) :
      CStep n (.mk (some ⟨id, op, lk, mk⟩) rs (ka ++ kv :: kb) (ca ++ b :: c :: cb)) ⟨id, op, false, none, .moved⟩
        (.mk (some ⟨id, op, lk, .under out⟩) rs (ka ++ kb) (ca ++ .mk none [] (b.kvs ++ kv :: c.kvs) (b.children ++ c.children) :: cb))
  /-- The same for the first child: its right neighbour is merged into it. -/
  | mergeRight {id op lk mk rs kv kb c d cb out} (hm : mk.waits = true)
      (hc : c.hold = some ⟨id, op, true, .under out⟩) (hx : rebalanceIndex mk 0 = 0)
      (hd : d.Free) (hr : ∀ x ∈ cb, x.Free) (hg : ∀ g ∈ d.children, g.Free)
      (hs : ¬ d.count > minValues n) (hu : ¬ kb.length < minValues n) :
      CStep n (.mk (some ⟨id, op, lk, mk⟩) rs (kv :: kb) (c :: d :: cb)) ⟨id, op, true, none, .left out⟩
        (.mk none rs kb (.mk none [] (c.kvs ++ kv :: d.kvs) (c.children ++ d.children) :: cb))
  | mergeRightUnder {id op lk mk rs kv kb c d cb out} (hm : mk.waits = true)
      (hc : c.hold = some ⟨id, op, true, .under out⟩) (hx : rebalanceIndex mk 0 = 0)
      (hd : d.Free) (hr : ∀ x ∈ cb, x.Free) (hg : ∀ g ∈ d.children, g.Free)
      (hs : ¬ d.count > minValues n) (hu : kb.length < minValues n) :
      CStep n (.mk (some ⟨id, op, lk, mk⟩) rs (kv :: kb) (c :: d :: cb)) ⟨id, op, false, none, .moved⟩
        (.mk (some ⟨id, op, lk, .under out⟩) rs kb (.mk none [] (c.kvs ++ kv :: d.kvs) (c.children ++ d.children) :: cb))
  /-- The frame of this node waits while the call works further down; when the callee releases the locks above it,
  or returns with nothing left to do, this node is unlocked. -/
  | inner {id op lk m rs kvs ca c cb h e c'} (hm : m.waits = true) (hc : c.hold = some h) (hl : h.linked = true)
      (hid : e.id = id) (hop : e.op = op) (hs : CStep n c e c') :
      CStep n (.mk (some ⟨id, op, lk, m⟩) rs kvs (ca ++ c :: cb)) { e with swap := nextSwap m e.swap }
        (.mk (if e.rel then none else some ⟨id, op, lk, nextMark m e.swap⟩) rs (nextKvs m kvs e.swap) (ca ++ c' :: cb))

/-- `Create` and `Delete` lock the tree for writing at once; `Find` and `CreateOrFind` begin with a search
(threadsafe_create.go:44, 199; threadsafe_delete.go:77; threadsafe_find.go:38). -/
def startsWriting : Op K V → Bool
  | .create _ _ => true
  | .delete _ _ => true
  | _ => false

/-- One step of any call somewhere in this subtree. -/
inductive NStep (n : Nat) : CNode K V → Eff K V → CNode K V → Prop where
  /-- A call whose chain of exclusive locks begins here. -/
  | chain {t h e t'} (hh : t.hold = some h) (hl : h.linked = false) (hs : CStep n t e t') : NStep n t e t'
  /-- threadsafe_find.go:92-97: the key is found under a shared lock (held by a call that begins with searching). -/
  | readHit {w ra id op rb kvs cs kv} (hr : startsWriting op = false) (hh : hit (opKey op) kvs = some kv) :
      NStep n (.mk w (ra ++ (id, op) :: rb) kvs cs) ⟨id, op, true, none, .answered (foundOut op kv)⟩ (.mk w (ra ++ rb) kvs cs)
  /-- threadsafe_find.go:116-119: the leaf does not have it. -/
  | readMiss {w ra id k rb kvs} (hh : hit k kvs = none) :
      NStep n (.mk w (ra ++ (id, .find k) :: rb) kvs []) ⟨id, .find k, true, none, .answered (.find none)⟩ (.mk w (ra ++ rb) kvs [])
  /-- The same for the search that `CreateOrFind` starts with (threadsafe_create.go:199-205). -/
  | readAgain {w ra id k v rb kvs} (hh : hit k kvs = none) :
      NStep n (.mk w (ra ++ (id, .createOrFind k v) :: rb) kvs []) ⟨id, .createOrFind k v, true, none, .again⟩ (.mk w (ra ++ rb) kvs [])
  /-- threadsafe_find.go:99-115: lock the child shared, then unlock this node. -/
  | readDown {w ra id op rb kvs ca c cb} (hr : startsWriting op = false) (hh : hit (opKey op) kvs = none) (hi : ca.length = scan (opKey op) kvs)
      (hf : c.hold = none) :
      NStep n (.mk w (ra ++ (id, op) :: rb) kvs (ca ++ c :: cb)) ⟨id, op, false, none, .moved⟩
        (.mk w (ra ++ rb) kvs (ca ++ c.addReader (id, op) :: cb))
  /-- A step in the subtree of a child. -/
  | child {w rs kvs ca c cb e c'} (hs : NStep n c e c') :
      NStep n (.mk w rs kvs (ca ++ c :: cb)) e (.mk w rs kvs (ca ++ c' :: cb))

/-! ### The whole tree -/

/-- threadsafe_b_tree.go:17-34 with the calls that are under way: those that wait for the tree's lock (the Bool: to
write), those that are done but have not returned, and the tree's own lock. -/
structure St (K V : Type) where
  waiting : List (Nat × Op K V × Bool)
  hold : Option (Hold K V)
  readers : List (Nat × Op K V)
  root : Option (CNode K V)
  finished : List (Nat × Op K V × Out K V)

/-- threadsafe_b_tree.go:64-85 `NewThreadSafe`. -/
def St.init : St K V := ⟨[], none, [], none, []⟩

/-- Book-keeping of the outcome of a step. -/
def St.settle (s : St K V) (e : Eff K V) : St K V :=
  match e.outcome with
  | .moved => s
  | .applied _ => s
  | .left out => { s with finished := (e.id, e.op, out) :: s.finished }
  | .answered out => { s with finished := (e.id, e.op, out) :: s.finished }
  | .again => { s with waiting := (e.id, e.op, true) :: s.waiting }

/-- The tree's lock after the root has been locked: kept unless the root is safe (threadsafe_create.go:46-55, 99-101;
threadsafe_delete.go:79-84, 113-116). -/
def treeHold (n : Nat) (id : Nat) (op : Op K V) (count : Nat) : Option (Hold K V) :=
  if safe n op count then none else some ⟨id, op, false, .inChild⟩

/-- threadsafe_create.go:50-52, 212-214: `if btree.root == nil { btree.root = newBTreeNode(btree.nodeSize) }`. -/
def rootOrNew : Option (CNode K V) → CNode K V
  | some r => r
  | none => .mk none [] [] []

/-- One step of the tree: an event seen by the clients, or none. -/
inductive Step (n : Nat) : St K V → Option (Event K V) → St K V → Prop where
  /-- A client makes a call. -/
  | call {s : St K V} (id : Nat) (op : Op K V) :
      Step n s (some (.call id op)) { s with waiting := (id, op, startsWriting op) :: s.waiting }
  /-- A call returns. -/
  | ret {s : St K V} {fa id op out fb} (hf : s.finished = fa ++ (id, op, out) :: fb) :
      Step n s (some (.ret id op out)) { s with finished := fa ++ fb }
  /-- `btree.lock.Lock()` (threadsafe_create.go:44, 206; threadsafe_delete.go:77). -/
  | lock {s : St K V} {wa id op wb} (hw : s.waiting = wa ++ (id, op, true) :: wb) (hh : s.hold = none) (hr : s.readers = []) :
      Step n s none { s with waiting := wa ++ wb, hold := some ⟨id, op, false, .down⟩ }
  /-- `btree.root.lock.Lock()` of `Create`/`CreateOrFind` (threadsafe_create.go:50-55, 212-217). -/
  | enterCreate {s : St K V} {id op item} (hw : newItem op = some item) (hh : s.hold = some ⟨id, op, false, .down⟩)
      (hf : (rootOrNew s.root).Free) :
      Step n s none { s with
        hold := treeHold n id op (rootOrNew s.root).count
        root := some ((rootOrNew s.root).held (some ⟨id, op, !safe n op (rootOrNew s.root).count, .down⟩)) }
  /-- `btree.root.lock.Lock()` of `Delete` (threadsafe_delete.go:83-85). -/
  | enterDelete {s : St K V} {id k can r} (hh : s.hold = some ⟨id, .delete k can, false, .down⟩) (hr : s.root = some r) (hf : r.Free) :
      Step n s none { s with
        hold := treeHold n id (.delete k can) r.count
        root := some (r.held (some ⟨id, .delete k can, !safe n (.delete k can) r.count, .down⟩)) }
  /-- `Delete` in an empty tree (threadsafe_delete.go:83, 94). -/
  | deleteEmpty {s : St K V} {id k can} (hh : s.hold = some ⟨id, .delete k can, false, .down⟩) (hr : s.root = none) :
      Step n s none { s with hold := none, finished := (id, .delete k can, .delete none) :: s.finished }
  /-- A step of the call that holds the tree's lock and the root. -/
  | inner {s : St K V} {id op r h e r'} (hh : s.hold = some ⟨id, op, false, .inChild⟩) (hr : s.root = some r)
      (hc : r.hold = some h) (hl : h.linked = true) (hid : e.id = id) (hop : e.op = op) (hs : CStep n r e r') :
      Step n s none (St.settle { s with hold := if e.rel then none else s.hold, root := some r' } e)
  /-- A step of any other call in the tree. -/
  | node {s : St K V} {r e r'} (hr : s.root = some r) (hs : NStep n r e r') :
      Step n s none (St.settle { s with root := some r' } e)
  /-- threadsafe_create.go:59-61, 217-219: the halves of the root get a new root. -/
  | grow {s : St K V} {id op r out kv l rt} (hh : s.hold = some ⟨id, op, false, .inChild⟩) (hr : s.root = some r)
      (hc : r.hold = some ⟨id, op, true, .over out⟩) (hp : splitHalves n r.kvs r.children = some (kv, l, rt)) :
      Step n s none { s with hold := none, root := some (.mk none [] [kv] [l, rt]), finished := (id, op, out) :: s.finished }
  /-- threadsafe_delete.go:85-91: an empty root is replaced by its only child, or by nothing. -/
  | shrink {s : St K V} {id op r out} (hh : s.hold = some ⟨id, op, false, .inChild⟩) (hr : s.root = some r)
      (hc : r.hold = some ⟨id, op, true, .under out⟩) :
      Step n s none { s with hold := none, root := if r.count = 0 then r.children[0]? else some (r.held none),
                             finished := (id, op, out) :: s.finished }
  /-- `btree.lock.RLock()` (threadsafe_find.go:38). -/
  | rlock {s : St K V} {wa id op wb} (hw : s.waiting = wa ++ (id, op, false) :: wb) (hh : s.hold = none) :
      Step n s none { s with waiting := wa ++ wb, readers := (id, op) :: s.readers }
  /-- `btree.root.lock.RLock()`, then `btree.lock.RUnlock()` (threadsafe_find.go:48-53). -/
  | renter {s : St K V} {ra id op rb r} (hw : s.readers = ra ++ (id, op) :: rb) (hr : s.root = some r) (hf : r.hold = none) :
      Step n s none { s with readers := ra ++ rb, root := some (r.addReader (id, op)) }
  /-- `Find` in an empty tree (threadsafe_find.go:80-82). -/
  | findEmpty {s : St K V} {ra id k rb} (hw : s.readers = ra ++ (id, .find k) :: rb) (hr : s.root = none) :
      Step n s none { s with readers := ra ++ rb, finished := (id, .find k, .find none) :: s.finished }
  /-- The search of `CreateOrFind` in an empty tree. -/
  | againEmpty {s : St K V} {ra id k v rb} (hw : s.readers = ra ++ (id, .createOrFind k v) :: rb) (hr : s.root = none) :
      Step n s none { s with readers := ra ++ rb, waiting := (id, .createOrFind k v, true) :: s.waiting }

/-- Any number of steps, with the events seen on the way. -/
inductive Run (n : Nat) : St K V → List (Event K V) → St K V → Prop where
  | nil {s : St K V} : Run n s [] s
  | step {s s' s'' : St K V} {ev evs} (h : Run n s evs s') (hs : Step n s' ev s'') : Run n s (evs ++ ev.toList) s''

end

end Willow.BTreeConc
