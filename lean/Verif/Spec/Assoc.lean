import Verif.Model.Assoc
import Verif.Spec.BTree
/-
Specification vocabulary for the associated tree: key-value sets, the store as a plain list of items, the meaning of a query and of
a match.  Nothing here looks at the index.
-/
namespace Willow.Spec
open Assoc

variable {K V : Type}

/-- A key-value map the API accepts: not empty, every key once. -/
def ValidKVs (kvs : KVs K) : Prop := kvs ≠ [] ∧ (kvs.map (·.1)).Nodup

/-- Two key-value maps are the same map: same size and every pair of the first is in the second. -/
def sameKVs [KeyOps K] (a b : KVs K) : Bool :=
  a.length == b.length && a.all (fun x => b.any (fun y => x.1 == y.1 && same x.2 y.2))

/-! ### The store as a plain list of items -/

/-- Operations of a client.  A `create` with `none` is one whose callback fails; `delete` carries the answers of the `canDelete`
callback, or `none` for a nil callback. -/
inductive AOp (K V : Type) where
  | create (kvs : KVs K) (v : Option V)
  | createOrFind (kvs : KVs K) (v : Option V)
  | delete (kvs : KVs K) (can : Option (Item K V → Bool))
  | deleteById (id : Nat) (can : Option (Item K V → Bool))
  | destroyById (id : Nat) (can : Option (Item K V → Bool))

/-- The key-value maps in the request pass validation. -/
def AOp.Valid : AOp K V → Prop
  | .create kvs _ => ValidKVs kvs
  | .createOrFind kvs _ => ValidKVs kvs
  | .delete kvs _ => ValidKVs kvs
  | .deleteById _ _ => True
  | .destroyById _ _ => True

/-- What the client observes. -/
inductive AOut (K V : Type) where
  /-- created under this id -/
  | created (id : Nat)
  /-- the key-values already exist -/
  | exists_
  /-- onFind was called on this item -/
  | found (item : Item K V)
  /-- the create callback failed -/
  | failed
  /-- a delete returned; the item `canDelete` was asked about, if it was called -/
  | deleted (asked : Option (Item K V))

/-- The stored items, oldest first, and the id generator. -/
structure Store (K V : Type) where
  items : List (Item K V)
  next : Nat

/-- Remove the first item with property `p` if there is one and the callback agrees. -/
def Store.remove (s : Store K V) (p : Item K V → Bool) (can : Option (Item K V → Bool)) : Store K V × AOut K V :=
  match s.items.find? p, can with
  | none, _ => (s, .deleted none)
  | some i, none => ({ s with items := s.items.filter (fun j => j.id != i.id) }, .deleted none)
  | some i, some f => if f i then ({ s with items := s.items.filter (fun j => j.id != i.id) }, .deleted (some i)) else (s, .deleted (some i))

/-- One operation on the plain store. -/
def storeStep [KeyOps K] (s : Store K V) : AOp K V → Store K V × AOut K V
  | .create kvs v => match s.items.find? (fun i => sameKVs kvs i.kvs), v with
    | some _, _ => (s, .exists_)
    | none, some v => (⟨s.items ++ [⟨s.next, kvs, v⟩], s.next + 1⟩, .created s.next)
    | none, none => (⟨s.items, s.next + 1⟩, .failed)
  | .createOrFind kvs v => match s.items.find? (fun i => sameKVs kvs i.kvs), v with
    | some i, _ => (s, .found i)
    | none, some v => (⟨s.items ++ [⟨s.next, kvs, v⟩], s.next + 1⟩, .created s.next)
    | none, none => (⟨s.items, s.next + 1⟩, .failed)
  | .delete kvs can => s.remove (fun i => sameKVs kvs i.kvs) can
  | .deleteById id can => s.remove (fun i => i.id == id) can
  | .destroyById id can => s.remove (fun i => i.id == id) can

/-- A history on the plain store. -/
def storeRun [KeyOps K] (s : Store K V) : List (AOp K V) → Store K V × List (AOut K V)
  | [] => (s, [])
  | op :: ops => ((storeRun (storeStep s op).1 ops).1, (storeStep s op).2 :: (storeRun (storeStep s op).1 ops).2)

/-- What a client sees of the result of a create. -/
def seen : CreateOut K V → AOut K V
  | .created id => .created id
  | .exists_ => .exists_
  | .found i => .found i
  | .failed _ => .failed
  | .destroying => .failed

/-- One operation on the associated tree (`none` = the service panics). -/
def assocStep [KeyOps K] (t : ATree K V) : AOp K V → Option (ATree K V × AOut K V)
  | .create kvs v => some ((t.create kvs v).1, seen (t.create kvs v).2)
  | .createOrFind kvs v => (t.createOrFind kvs v).map (fun r => (r.1, seen r.2))
  | .delete kvs can => some ((t.delete kvs can).1, .deleted (t.delete kvs can).2)
  | .deleteById id can => (t.deleteById id can).map (fun r => (r.1, .deleted r.2))
  | .destroyById id can => (t.destroyById id can).map (fun r => (r.1, .deleted r.2))

/-- A history on the associated tree. -/
def assocRun [KeyOps K] (t : ATree K V) : List (AOp K V) → Option (ATree K V × List (AOut K V))
  | [] => some (t, [])
  | op :: ops =>
    match assocStep t op with
    | none => none
    | some (t', o) => match assocRun t' ops with
      | none => none
      | some (t'', os) => some (t'', o :: os)

/-- The trees a client can obtain by a history of valid requests. -/
def AReachable [KeyOps K] (t : ATree K V) : Prop :=
  ∃ ops outs, (∀ op ∈ ops, AOp.Valid op) ∧ assocRun (ATree.new : ATree K V) ops = some (t, outs)

/-- The items a destroy-all removes: those asked about before the first refusal. -/
def approved {S : Type} (can : S → Item K V → S × Bool) : List (Item K V) → S → List (Item K V) × S
  | [], s => ([], s)
  | i :: is, s => match can s i with
    | (s', false) => ([], s')
    | (s', true) => (i :: (approved can is s').1, (approved can is s').2)

/-! ### Queries -/

section
variable [KeyOps K]

/-- The type of the value is inside the type restriction. -/
def inside (tr : TypeRestrictions) (v : K) : Bool := decide (tr.lo ≤ KeyOps.typ v) && decide (KeyOps.typ v ≤ tr.hi)
/-- The value is the wildcard. -/
def wild (v : K) : Bool := decide (KeyOps.typ v = DataType.any)
/-- `v` comes before `q` (values of different types are ordered by type). -/
def before (v q : K) : Bool := KeyOps.lt v q

/-- A stored value satisfies `= q`: same value, or one of the two is the wildcard; its type must be inside the restriction. -/
def equalsMatch (q : K) (tr : TypeRestrictions) (v : K) : Bool := inside tr v && (same v q || wild v || wild q)

/-- The stored value of a query's key (if the item has the key) satisfies the comparison. -/
def valueHolds (vq : ValueQuery K) (v : Option K) : Bool :=
  match vq.cmp, v with
  | .eq, some v => equalsMatch vq.value vq.tr v
  | .ne, some v => !equalsMatch vq.value vq.tr v
  | .ne, none => true
  | .lt, some v => inside vq.tr v && (before v vq.value || wild v)
  | .le, some v => inside vq.tr v && (!before vq.value v || wild v)
  | .gt, some v => inside vq.tr v && (before vq.value v || wild v)
  | .ge, some v => inside vq.tr v && (!before v vq.value || wild v)
  | _, none => false

/-- The value of a key in a key-value map. -/
def valueOf (kvs : KVs K) (k : GoString) : Option K := (kvs.find? (fun kv => kv.1 == k)).map (·.2)

/-- A number of key-values is inside optional bounds. -/
def sizeInside (min max : Option Int) (n : Nat) : Bool := min.all (fun m => decide (m ≤ (n : Int))) && max.all (fun m => decide ((n : Int) ≤ m))

/-- The key-values satisfy a selection (ids left aside). -/
def selHolds (sel : Selection K) (kvs : KVs K) : Bool :=
  sizeInside sel.min sel.max kvs.length && sel.kvs.all (fun kq => valueHolds kq.2 (valueOf kvs kq.1))

mutual
/-- A query is satisfied: (its selection and all its Ands) or one of its Ors.  The empty query selects everything; a query that
has only Ors needs one of them. -/
def queryHolds (idOk : List Nat → Bool) (kvs : KVs K) : Query K → Bool
  | .mk sel or and _ =>
    ((sel.isSome || !and.isEmpty || or.isEmpty) && sel.all (fun s => idOk s.ids && selHolds s kvs) && allHold idOk kvs and) ||
      anyHolds idOk kvs or
/-- all of them -/
def allHold (idOk : List Nat → Bool) (kvs : KVs K) : List (Query K) → Bool
  | [] => true
  | q :: qs => queryHolds idOk kvs q && allHold idOk kvs qs
/-- one of them -/
def anyHolds (idOk : List Nat → Bool) (kvs : KVs K) : List (Query K) → Bool
  | [] => false
  | q :: qs => queryHolds idOk kvs q || anyHolds idOk kvs qs
end

/-- An item satisfies a query. -/
def satisfies (q : Query K) (i : Item K V) : Bool := queryHolds (fun ids => ids.isEmpty || ids.contains i.id) i.kvs q

/-- A type restriction that passes validation. -/
def ValidTR (tr : TypeRestrictions) : Prop :=
  (DataType.isGeneral tr.lo ∨ DataType.isAny tr.lo) ∧ (DataType.isGeneral tr.hi ∨ DataType.isAny tr.hi) ∧ tr.lo ≤ tr.hi

/-- A comparison that passes validation. -/
def ValidVQ (vq : ValueQuery K) : Prop :=
  ValidTR vq.tr ∧ (vq.cmp = .eq ∨ vq.cmp = .ne ∨ KeyOps.typ vq.value ≠ DataType.any)

/-- A selection that passes validation (it asks for something; every key once). -/
def ValidSel (sel : Selection K) : Prop :=
  (sel.kvs.map (·.1)).Nodup ∧ (∀ kq ∈ sel.kvs, ValidVQ kq.2) ∧ (sel.ids ≠ [] ∨ sel.kvs ≠ [] ∨ sel.min.isSome ∨ sel.max.isSome)

mutual
/-- Every selection anywhere in the query satisfies `P`, and every proper sub-query satisfies `Q`. -/
def everywhere (P : Selection K → Prop) (Q : Query K → Prop) : Query K → Prop
  | .mk sel or and _ => (∀ s, sel = some s → P s) ∧ everywhereL P Q or ∧ everywhereL P Q and
/-- The same for all queries of a list, these included. -/
def everywhereL (P : Selection K → Prop) (Q : Query K → Prop) : List (Query K) → Prop
  | [] => True
  | q :: qs => Q q ∧ everywhere P Q q ∧ everywhereL P Q qs
end

/-- A query that passes validation. -/
def ValidQuery (q : Query K) : Prop := everywhere ValidSel (fun _ => True) q

/-- The query asks for something: it has a selection or at least one sub-query. -/
def Asks : Query K → Prop
  | .mk sel or and _ => sel.isSome ∨ or ≠ [] ∨ and ≠ []

/-- The empty query: no selection and both lists nil. -/
def IsEmptyQuery : Query K → Prop
  | .mk sel or and nl => sel = none ∧ or = [] ∧ and = [] ∧ nl = true

/-- The type restriction does not cut off the side of the comparison that the tree search ignores. -/
def TrOk (vq : ValueQuery K) : Prop :=
  ((vq.cmp = .lt ∨ vq.cmp = .le) → KeyOps.typ vq.value ≤ vq.tr.hi) ∧ ((vq.cmp = .gt ∨ vq.cmp = .ge) → vq.tr.lo ≤ KeyOps.typ vq.value)

/-- The selections for which the index search is exact: by ids, or at most one `!=` and restrictions that do not cut off the ignored side. -/
def SelExact (sel : Selection K) : Prop :=
  sel.ids ≠ [] ∨ ((∀ kq ∈ sel.kvs, TrOk kq.2) ∧ ∀ kq ∈ sel.kvs, ∀ kq' ∈ sel.kvs, kq.2.cmp = .ne → kq'.2.cmp = .ne → kq = kq')

/-! ### Matches -/

/-- Every pair of the stored key-values is covered by the request, and their number is inside the bounds. -/
def covered (mq : MatchQuery K) (kvs : KVs K) : Bool :=
  kvs.all (fun kv => mq.kvs.any (fun r => r.1 == kv.1 && equalsMatch r.2.value r.2.tr kv.2)) && sizeInside mq.min mq.max kvs.length

/-- A match request that passes validation. -/
def ValidMatch (mq : MatchQuery K) : Prop :=
  mq.kvs ≠ [] ∧ (mq.kvs.map (·.1)).Nodup ∧ ∀ r ∈ mq.kvs, ValidTR r.2.tr

/-- A query without only Ors: it has a selection or an And, or no Or at all. -/
def NotOnlyOrs : Query K → Prop
  | .mk sel or and _ => sel.isSome ∨ and ≠ [] ∨ or = []


end
end Willow.Spec
