import Verif.Model.Assoc
/-
Model of internal/datastructures/btree_one_to_many: one associated tree for each relation id ("oneID").

The outer B-tree over the relation ids is used through what C06-C08 prove about it: a finite map (as the inner B-trees of the
associated tree).  One operation at a time; the "destroying" refusals of concurrent operations are not modelled.
`none` = the service panics.
-/
namespace Willow.OTM
open Willow.Assoc

variable {K V : Type}

/-- one_to_many_item.go:20-28 `oneToManyItem`. -/
structure OItem (K V : Type) where
  value : V
  oneID : GoString
  manyID : Nat
  kvs : KVs K

/-- one_to_many.go:8-28 `threadsafeOneToManyTree`: relation id → associated tree. -/
abbrev Tree (K V : Type) := List (GoString × ATree K (OItem K V))

/-- btree_one_to_many.go:12 `ReservedID` = "_associated_id". -/
def reservedID : GoString := [95, 97, 115, 115, 111, 99, 105, 97, 116, 101, 100, 95, 105, 100]

/-- btree_one_to_many.go:174-181 `hasResevedKeys`. -/
def hasReservedKeys (kvs : KVs K) : Bool := kvs.any (fun kv => kv.1 == reservedID)

/-- The parameter errors (btree_one_to_many.go:24-31). -/
inductive Err | oneIDEmpty | reservedKeys
deriving DecidableEq, Repr

/-- What a caller observes. -/
inductive OOut (K V : Type) where
  | error (e : Err)
  /-- created under this id -/
  | created (id : Nat)
  /-- onFind ran on this item -/
  | found (i : OItem K V)
  /-- onCreate returned nil -/
  | failed
  /-- a delete returned; the item canDelete was asked about -/
  | deleted (asked : Option (OItem K V))
  /-- the items a query or match iterated over -/
  | visited (l : List (OItem K V))
  /-- a DestroyOne returned; whether the relation is gone -/
  | destroyed (gone : Bool)

/-- An exact Find of the relation id in the outer tree. -/
def rel (o : Tree K V) (one : GoString) : Option (ATree K (OItem K V)) := alookup seq one o

section
variable [KeyOps K]

/-- The item the create callback stores (threadsafe_create.go:54-69, 95-97): its `manyID` is filled in with the id the associated
tree hands out, which is the next id of its generator. -/
def newItem (t : ATree K (OItem K V)) (one : GoString) (kvs : KVs K) (v : V) : OItem K V := ⟨v, one, t.next, kvs⟩

/-- The answer of CreateOrFind (threadsafe_create.go:71-97). -/
def createOut : CreateOut K (OItem K V) → OOut K V
  | .created id => .created id
  | .found i => .found i.value
  | _ => .failed

/-- threadsafe_create.go:28-117 `CreateOrFind` (after validation of the key-values). -/
def createOrFind (o : Tree K V) (one : GoString) (kvs : KVs K) (onCreate : Option V) : Option (Tree K V × OOut K V) :=
  if one = [] then some (o, .error .oneIDEmpty)
  else if hasReservedKeys kvs then some (o, .error .reservedKeys)
  else
    let t := (rel o one).getD ATree.new
    match t.createOrFind kvs (onCreate.map (newItem t one kvs)) with
    | none => none
    | some (t', out) => some (aupsert seq one (fun _ => t') o, createOut out)

/-- The optional canDelete callback, on the stored item (threadsafe_delete.go:32-39, threadsafe_destroy.go:83-90). -/
def onItem (can : Option (OItem K V → Bool)) : Option (Item K (OItem K V) → Bool) := can.map (fun f i => f i.value)

/-- Run an operation on the associated tree found under a relation id (the callbacks of `oneKeys.Find`); nothing happens if there
is none. -/
def onRelation (o : Tree K V) (one : GoString) (f : ATree K (OItem K V) → Option (ATree K (OItem K V) × OOut K V)) (dflt : OOut K V) :
    Option (Tree K V × OOut K V) :=
  if one = [] then some (o, .error .oneIDEmpty)
  else match rel o one with
    | none => some (o, dflt)
    | some t => match f t with
      | none => none
      | some (t', out) => some (aupsert seq one (fun _ => t') o, out)

/-- threadsafe_delete.go:22-69 `DeleteOneOfManyByKeyValues`. -/
def deleteByKeyValues (o : Tree K V) (one : GoString) (kvs : KVs K) (can : Option (OItem K V → Bool)) : Option (Tree K V × OOut K V) :=
  onRelation o one (fun t => some ((t.delete kvs (onItem can)).1, .deleted ((t.delete kvs (onItem can)).2.map (·.value)))) (.deleted none)

/-- threadsafe_destroy.go:75-120 `DestroyOneOfManyByID`. -/
def destroyManyByID (o : Tree K V) (one : GoString) (id : Nat) (can : Option (OItem K V → Bool)) : Option (Tree K V × OOut K V) :=
  onRelation o one (fun t => (t.destroyById id (onItem can)).map (fun r => (r.1, .deleted (r.2.map (·.value))))) (.deleted none)

/-- threadsafe_query.go:22-60 `QueryAction`, with a callback that never stops. -/
def query (o : Tree K V) (one : GoString) (q : Query K) : Option (Tree K V × OOut K V) :=
  onRelation o one (fun t => (t.queryAction q).map (fun l => (t, .visited (l.map (·.value))))) (.visited [])

/-- threadsafe_match.go:19-56 `MatchAction`, with a callback that never stops. -/
def matchAction (o : Tree K V) (one : GoString) (shuffle : List GoString → List GoString) (mq : MatchQuery K) : Option (Tree K V × OOut K V) :=
  onRelation o one (fun t => (t.matchAction shuffle mq).map (fun l => (t, .visited (l.map (·.value))))) (.visited [])

/-- The optional canDelete callback; nil agrees (threadsafe_destroy.go:40-46). -/
def agrees (can : Option (OItem K V → Bool)) (i : Item K (OItem K V)) : Bool :=
  match can with
  | some f => f i.value
  | none => true

/-- threadsafe_destroy.go:25-59 `DestroyOne`: all items are destroyed in the order of the id tree until canDelete refuses; the
relation goes away if it did not refuse.  `ord` is that order. -/
def destroyOne (o : Tree K V) (one : GoString) (can : Option (OItem K V → Bool)) (ord : List (Item K (OItem K V)) → List (Item K (OItem K V))) :
    Option (Tree K V × OOut K V) :=
  if one = [] then some (o, .error .oneIDEmpty)
  else match rel o one with
    | none => some (o, .destroyed false)
    | some t =>
      match t.destroyTree (fun _ i => (agrees can i, agrees can i)) (ord t.items) true with
      | none => none
      | some (t', deleted) => some (aremove seq one (fun _ => if deleted then none else some t') o, .destroyed deleted)

/-- A request. -/
inductive OOp (K V : Type) where
  | createOrFind (one : GoString) (kvs : KVs K) (v : Option V)
  | deleteByKeyValues (one : GoString) (kvs : KVs K) (can : Option (OItem K V → Bool))
  | destroyManyByID (one : GoString) (id : Nat) (can : Option (OItem K V → Bool))
  | query (one : GoString) (q : Query K)
  | matchAction (one : GoString) (shuffle : List GoString → List GoString) (mq : MatchQuery K)
  | destroyOne (one : GoString) (can : Option (OItem K V → Bool)) (ord : List (Item K (OItem K V)) → List (Item K (OItem K V)))

/-- The relation id a request names. -/
def OOp.one : OOp K V → GoString
  | .createOrFind one _ _ | .deleteByKeyValues one _ _ | .destroyManyByID one _ _ | .query one _ | .matchAction one _ _ | .destroyOne one _ _ => one

/-- One request on the tree (one_to_many.go and the files cited above). -/
def step (o : Tree K V) : OOp K V → Option (Tree K V × OOut K V)
  | .createOrFind one kvs v => createOrFind o one kvs v
  | .deleteByKeyValues one kvs can => deleteByKeyValues o one kvs can
  | .destroyManyByID one id can => destroyManyByID o one id can
  | .query one q => query o one q
  | .matchAction one sh mq => matchAction o one sh mq
  | .destroyOne one can ord => destroyOne o one can ord

/-- A history of requests. -/
def run (o : Tree K V) : List (OOp K V) → Option (Tree K V × List (OOut K V))
  | [] => some (o, [])
  | op :: ops => match step o op with
    | none => none
    | some (o', out) => match run o' ops with
      | none => none
      | some (o'', outs) => some (o'', out :: outs)

end
end Willow.OTM
