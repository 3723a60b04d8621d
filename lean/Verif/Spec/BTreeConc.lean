import Verif.Spec.BTree
/-
What clients of a tree see when calls overlap, and the reference they compare it with: a map that performs each call
in one indivisible step at some moment between the call and its return (linearizability).
-/
namespace Willow.Spec

variable {K V : Type}

/-- What clients see: a call is made, a call returns.  Calls carry an identity chosen by the clients. -/
inductive Event (K V : Type) where
  | call (id : Nat) (op : Op K V)
  | ret (id : Nat) (op : Op K V) (out : Out K V)

/-- A map with the calls that are under way. -/
structure AtomicMap (K V : Type) where
  items : Map K V
  /-- calls made that have had no effect yet. -/
  called : List (Nat × Op K V)
  /-- calls that have had their effect and have not returned yet. -/
  answered : List (Nat × Op K V × Out K V)

/-- The empty map, no calls. -/
def AtomicMap.init : AtomicMap K V := ⟨fun _ => none, [], []⟩

/-- A call is made; a call has its whole effect at once; a call returns the answer it got then. -/
inductive AtomicMap.Step [KeyOps K] : AtomicMap K V → Option (Event K V) → AtomicMap K V → Prop where
  | call {a : AtomicMap K V} (id : Nat) (op : Op K V) : Step a (some (.call id op)) { a with called := (id, op) :: a.called }
  | effect {a : AtomicMap K V} {xs id op ys} (h : a.called = xs ++ (id, op) :: ys) :
      Step a none ⟨(mapStep a.items op).1, xs ++ ys, (id, op, (mapStep a.items op).2) :: a.answered⟩
  | ret {a : AtomicMap K V} {xs id op out ys} (h : a.answered = xs ++ (id, op, out) :: ys) :
      Step a (some (.ret id op out)) { a with answered := xs ++ ys }

/-- Any number of steps, with the events seen on the way. -/
inductive AtomicMap.Run [KeyOps K] : AtomicMap K V → List (Event K V) → AtomicMap K V → Prop where
  | nil {a : AtomicMap K V} : Run a [] a
  | step {a a' a'' : AtomicMap K V} {ev evs} (h : Run a evs a') (hs : AtomicMap.Step a' ev a'') : Run a (evs ++ ev.toList) a''

/-! ### Counting events -/

/-- A call with this identity is made. -/
def Event.isCall (id : Nat) : Event K V → Bool
  | .call i _ => i == id
  | .ret _ _ _ => false
/-- A call with this identity returns. -/
def Event.isRet (id : Nat) : Event K V → Bool
  | .call _ _ => false
  | .ret i _ _ => i == id
/-- All calls that were made have returned. -/
def AllReturned (evs : List (Event K V)) : Prop := ∀ id, evs.countP (Event.isCall id) = evs.countP (Event.isRet id)

/-- The event says that a call created the item of key `k`. -/
def Event.created [KeyOps K] (k : K) : Event K V → Bool
  | .ret _ (.create k' _) (.create true) => same k k'
  | .ret _ (.createOrFind k' _) (.createOrFind none) => same k k'
  | _ => false
/-- The event is a call that may delete the item of key `k`. -/
def Event.deletes [KeyOps K] (k : K) : Event K V → Bool
  | .call _ (.delete k' _) => same k k'
  | _ => false

/-- The key a call is about. -/
def keyOf : Op K V → K
  | .create k _ => k
  | .createOrFind k _ => k
  | .find k => k
  | .delete k _ => k
/-- The event is a call about key `k`. -/
def Event.callsKey [KeyOps K] (k : K) : Event K V → Bool
  | .call _ op => same k (keyOf op)
  | .ret _ _ _ => false
/-- The event is the return of a call about key `k`. -/
def Event.retsKey [KeyOps K] (k : K) : Event K V → Bool
  | .call _ _ => false
  | .ret _ op _ => same k (keyOf op)
/-- All calls about key `k` that were made have returned. -/
def KeyReturned [KeyOps K] (k : K) (evs : List (Event K V)) : Prop := evs.countP (Event.callsKey k) = evs.countP (Event.retsKey k)

end Willow.Spec
