import Verif.Model.BTree
/-
Model of internal/datastructures/btree_associated (threadsafeAssociatedTree), one operation at a time.

* The inner B-trees (`keys`, each `values`, `associatedIDs`) are finite maps: C06-C14 show that the tree is a map and what each find visits.
  Iteration order and shape are not kept.
* A Go map `datatypes.KeyValues` is a list of (key, value) pairs in `SortedKeys` order.
* `set.Set[string]` is a duplicate-free list (its iteration order is random in Go: nothing below depends on it).
* Ids are natural numbers handed out in increasing order: the UUID generator (internal/idgenerator/uuid.go) is assumed never to repeat.
* `creating` counters are 0 outside a running operation and left out, as are locks and the destroying flags.
-/
namespace Willow.Assoc
open KeyOps

variable {K V : Type}

/-! ### set.Set -/

/-- internal/datastructures/set/set.go. -/
abbrev GSet := List Nat
/-- set.go:47-49 `Add`. -/
def GSet.add (s : GSet) (x : Nat) : GSet := if s.contains x then s else s ++ [x]
/-- set.go:51-55 `AddBulk`. -/
def GSet.addBulk (s : GSet) (l : List Nat) : GSet := l.foldl GSet.add s
/-- set.go:38-45 `New`. -/
def GSet.new (l : List Nat) : GSet := GSet.addBulk [] l
/-- set.go:61-76 `Intersection`. -/
def GSet.inter (s : GSet) (l : List Nat) : GSet := GSet.addBulk [] (l.filter (fun x => s.contains x))
/-- set.go:78-80 `Remove`. -/
def GSet.remove (s : GSet) (x : Nat) : GSet := s.filter (fun y => y != x)

/-! ### Finite maps (the inner B-trees) -/

/-- exact `Find`. -/
def alookup {A B : Type} (eq : A → A → Bool) (a : A) (l : List (A × B)) : Option B := (l.find? (fun x => eq x.1 a)).map (·.2)
/-- `CreateOrFind`: apply `f` to the found item, or store `f none`. -/
def aupsert {A B : Type} (eq : A → A → Bool) (a : A) (f : Option B → B) : List (A × B) → List (A × B)
  | [] => [(a, f none)]
  | x :: xs => if eq x.1 a then (x.1, f (some x.2)) :: xs else x :: aupsert eq a f xs
/-- `Delete` with a callback that may also mutate the item: `none` removes it. -/
def aremove {A B : Type} (eq : A → A → Bool) (a : A) (f : B → Option B) : List (A × B) → List (A × B)
  | [] => []
  | x :: xs => if eq x.1 a then (match f x.2 with | none => xs | some b => (x.1, b) :: xs) else x :: aremove eq a f xs

/-- Equality of the key strings. -/
def seq (a b : GoString) : Bool := a == b
/-- Equality of values in the value trees: neither is less. -/
def veq [KeyOps K] (a b : K) : Bool := !lt a b && !lt b a

/-! ### The tree -/

/-- A Go `datatypes.KeyValues` map, in sorted key order. -/
abbrev KVs (K : Type) := List (GoString × K)
/-- threadsafe_associated.go:36-45 `threadsafeIDNode.ids`. -/
abbrev IdNode := List (List Nat)
/-- the `keys` tree: key → values tree → id node. -/
abbrev Index (K : Type) := List (GoString × List (K × IdNode))

/-- threadsafe_associated_values.go:17-27 `associatedKeyValues`. -/
structure Item (K V : Type) where
  id : Nat
  kvs : KVs K
  value : V

/-- threadsafe_associated.go:12-28 `threadsafeAssociatedTree`; `next` is the state of the id generator. -/
structure ATree (K V : Type) where
  keys : Index K
  items : List (Item K V)
  next : Nat

/-- threadsafe_associated.go:47-64 `NewThreadSafe`. -/
def ATree.new : ATree K V := ⟨[], [], 0⟩

section
variable [KeyOps K]

/-- The id node for a key and value. -/
def Index.node (ix : Index K) (k : GoString) (v : K) : Option IdNode := (alookup seq k ix).bind (alookup veq v)
/-- Mutate (creating it if needed) the id node of a key and value: threadsafe_create.go:19-58 `findKey`/`createKey`/`findValue`/`createValue`. -/
def Index.upsert (ix : Index K) (k : GoString) (v : K) (f : IdNode → IdNode) : Index K :=
  aupsert seq k (fun vs => aupsert veq v (fun nd => f (nd.getD [])) (vs.getD [])) ix
/-- Mutate an id node under the delete callbacks and remove it when empty; remove the key when it has no more values
(threadsafe_delete.go:156-183 with `f = id`; 254-294 and threadsafe_destroy.go:96-124 with the removal of an id). -/
def Index.cleanup (ix : Index K) (k : GoString) (v : K) (f : IdNode → IdNode) : Index K :=
  aremove seq k (fun vs =>
    let vs' := aremove veq v (fun nd => if (f nd).isEmpty then none else some (f nd)) vs
    if vs'.isEmpty then none else some vs') ix

/-- Extend an id node to at least `n` sizes (threadsafe_create.go:101-105). -/
def extendNode (n : Nat) (nd : IdNode) : IdNode := nd ++ List.replicate (n - nd.length) []
/-- Append an id to the list of size `n` (threadsafe_create.go:138-140). -/
def appendId (n : Nat) (id : Nat) (nd : IdNode) : IdNode := nd.set (n - 1) (nd.getD (n - 1) [] ++ [id])
/-- Swap with the last element and pop (threadsafe_delete.go:122-129).  The Go loop runs on over the old slice; as an id occurs at most
once in a list it finds nothing more. -/
def swapPop (id : Nat) (l : List Nat) : List Nat :=
  match l.findIdx? (· == id), l.getLast? with
  | some i, some last => (l.set i last).dropLast
  | _, _ => l
/-- Drop empty lists at the end (threadsafe_delete.go:132-139). -/
def truncateNode (nd : IdNode) : IdNode := (nd.reverse.dropWhile List.isEmpty).reverse
/-- Remove an id of an item of size `n` from a node. -/
def removeId (n : Nat) (id : Nat) (nd : IdNode) : IdNode := truncateNode (nd.set (n - 1) (swapPop id (nd.getD (n - 1) [])))

/-- One step of the loop that intersects the candidate ids (threadsafe_create.go:97-121). -/
def candidateStep (n : Nat) (acc : Option GSet) (nd : IdNode) : Option GSet :=
  if nd.length < n then some []
  else match acc with
    | none => some (GSet.new (nd.getD (n - 1) []))
    | some s => some (s.inter (nd.getD (n - 1) []))

/-- Results of the create operations. -/
inductive CreateOut (K V : Type) where
  /-- the item was created under this id -/
  | created (id : Nat)
  /-- ErrorKeyValuesAlreadyExists -/
  | exists_
  /-- CreateOrFind: onFind was called with this item -/
  | found (item : Item K V)
  /-- onCreate returned nil; the id returned to the caller (`none` = empty string) -/
  | failed (id : Option Nat)
  /-- ErrorTreeItemDestroying: never happens here -/
  | destroying

/-- `associatedIDs.Find(id)`. -/
def ATree.itemById (t : ATree K V) (id : Nat) : Option (Item K V) := t.items.find? (fun i => i.id == id)

/-- The answer of a possibly nil callback on a possibly missing item (threadsafe_delete.go:98-108). -/
def agrees (item : Option (Item K V)) (can : Option (Item K V → Bool)) : Bool :=
  match item, can with
  | some i, some f => f i
  | _, _ => true

/-- threadsafe_delete.go:26-179 `Delete`.  `can = none` is a nil callback.  Returns the tree and the item `canDelete` was asked about. -/
def ATree.delete (t : ATree K V) (kvs : KVs K) (can : Option (Item K V → Bool)) : ATree K V × Option (Item K V) :=
  let n := kvs.length
  let nodes := kvs.filterMap (fun kv => t.keys.node kv.1 kv.2)
  let clean (t : ATree K V) : ATree K V := { t with keys := kvs.foldl (fun ix kv => ix.cleanup kv.1 kv.2 id) t.keys }
  if nodes.length = n then
    if nodes.any (fun nd => nd.length < n) then (t, none)
    else
      match nodes.foldl (candidateStep n) none with
      | some [id] =>
        let item := t.itemById id
        if agrees item can then
          (clean { t with
            items := t.items.filter (fun i => i.id != id),
            keys := kvs.foldl (fun ix kv => ix.upsert kv.1 kv.2 (removeId n id)) t.keys },
            if can.isSome then item else none)
        else (clean t, item)
      | _ => (clean t, none)
  else (clean t, none)

/-- The part of `Create` and `CreateOrFind` after the search (threadsafe_create.go:84-181, 236-345).
`orFind` says which of the two it is. -/
def ATree.insert (t : ATree K V) (kvs : KVs K) (onCreate : Option V) (orFind : Bool) : ATree K V × CreateOut K V :=
  let n := kvs.length
  let keys1 := kvs.foldl (fun ix kv => ix.upsert kv.1 kv.2 (fun nd => nd)) t.keys
  let nodes := kvs.filterMap (fun kv => keys1.node kv.1 kv.2)
  let idSet := nodes.foldl (candidateStep n) none
  let keys2 := kvs.foldl (fun ix kv => ix.upsert kv.1 kv.2 (extendNode n)) keys1
  match idSet with
  | some [id] =>
    if orFind then
      match t.itemById id with
      | some i => ({ t with keys := keys2 }, .found i)
      | none => ({ t with keys := keys2 }, .created id)
    else ({ t with keys := keys2 }, .exists_)
  | _ =>
    let newId := t.next
    let keys3 := kvs.foldl (fun ix kv => ix.upsert kv.1 kv.2 (appendId n newId)) keys2
    match onCreate with
    | some v => ({ keys := keys3, items := t.items ++ [⟨newId, kvs, v⟩], next := t.next + 1 }, .created newId)
    | none =>
      (({ t with keys := keys3, next := t.next + 1 } : ATree K V).delete kvs none |>.1, .failed (if orFind then some newId else none))

/-- threadsafe_create.go:70-181 `Create` (after validation; a key-value map is never empty). -/
def ATree.create (t : ATree K V) (kvs : KVs K) (onCreate : Option V) : ATree K V × CreateOut K V := t.insert kvs onCreate false

end

/-! ### Queries -/

/-- data_comparison.go:10-19. -/
inductive Cmp where
  | eq | ne | lt | le | gt | ge
deriving DecidableEq, Repr

/-- value_query.go:9-27. -/
structure ValueQuery (K : Type) where
  value : K
  cmp : Cmp
  tr : TypeRestrictions

/-- selection.go:31-41; `kvs` in sorted key order. -/
structure Selection (K : Type) where
  ids : List Nat := []
  kvs : List (GoString × ValueQuery K) := []
  min : Option Int := none
  max : Option Int := none

/-- associated_action_query.go:17-24.  `nilLists` says that both slices are Go nil (as opposed to empty, e.g. from `"And":[]`). -/
inductive Query (K : Type) where
  | mk (sel : Option (Selection K)) (or and : List (Query K)) (nilLists : Bool)

section
variable [KeyOps K]

/-- type_restrictions.go:41-51 for the type of a value. -/
def inRange (tr : TypeRestrictions) (v : K) : Bool := tr.typeWithinRange (typ v)

/-- Which stored values a value-tree search visits: the exact sets of C11-C14 (including that FindLessThan(OrEqual) ignores the maximum
type and FindGreaterThan(OrEqual) the minimum; C13, C14). -/
def treeSelects (cmp : Cmp) (q : K) (tr : TypeRestrictions) (v : K) : Bool :=
  match cmp with
  | .eq | .ne =>
    if typ q = DataType.any then inRange tr v
    else (veq v q && inRange tr q) || (decide (typ v = DataType.any) && decide (tr.hi = DataType.any))
  | .lt => (lt v q && decide (tr.lo ≤ typ v)) || (decide (typ v = DataType.any) && decide (tr.hi = DataType.any))
  | .le => (!lt q v && decide (tr.lo ≤ typ v)) || (decide (typ v = DataType.any) && decide (tr.hi = DataType.any))
  | .gt => lt q v && decide (typ v ≤ tr.hi)
  | .ge => !lt v q && decide (typ v ≤ tr.hi)

/-- Is a number of key-values inside optional bounds. -/
def inBounds (min max : Option Int) (n : Nat) : Bool :=
  (match min with | some m => decide (m ≤ n) | none => true) && (match max with | some m => decide ((n : Int) ≤ m) | none => true)

/-- threadsafe_query.go:168-198 `getAllIDs` on one id node (the `break` at the maximum skips larger indices, which are out of bounds too). -/
def nodeIds (min max : Option Int) (nd : IdNode) : List Nat :=
  (nd.zipIdx.filter (fun x => inBounds min max (x.2 + 1))).flatMap (·.1)

/-- selection.go:82-249 `MatchKeyValues` on one query key. -/
def matchOne (q : ValueQuery K) (v : Option K) : Bool :=
  match q.cmp with
  | .eq => match v with
    | some m => inRange q.tr m && (!less m q.value && !less q.value m)
    | none => false
  | .ne => match v with
    | some m => !(inRange q.tr m && (!less m q.value && !less q.value m))
    | none => true
  | .lt => match v with
    | some m => inRange q.tr m &&
      (if DataType.isGeneral q.tr.hi then lt m q.value
       else if DataType.isAny q.tr.hi then decide (typ m = DataType.any) || lt m q.value else true)
    | none => false
  | .le => match v with
    | some m => inRange q.tr m &&
      (if DataType.isGeneral q.tr.hi then !(!lt m q.value && less q.value m)
       else if DataType.isAny q.tr.hi then decide (typ m = DataType.any) || !(!lt m q.value && less q.value m) else true)
    | none => false
  | .gt => match v with
    | some m => inRange q.tr m &&
      (if DataType.isGeneral q.tr.hi then lt q.value m
       else if DataType.isAny q.tr.hi then decide (typ m = DataType.any) || lt q.value m else true)
    | none => false
  | .ge => match v with
    | some m => inRange q.tr m &&
      (if DataType.isGeneral q.tr.hi then !(!lt q.value m && less m q.value)
       else if DataType.isAny q.tr.hi then decide (typ m = DataType.any) || !(!lt q.value m && less m q.value) else true)
    | none => false

/-- selection.go:82-249 `MatchKeyValues`. -/
def Selection.matchKeyValues (sel : Selection K) (kvs : KVs K) : Bool :=
  inBounds sel.min sel.max kvs.length && sel.kvs.all (fun q => matchOne q.2 (alookup seq q.1 kvs))

/-- State of the loop over the query keys in `findIDs`: the valid ids (none: none added yet) and the invalid ones. -/
structure FindState where
  valid : Option GSet
  invalid : Option GSet

/-- One turn of the loop (threadsafe_query.go:207-298). -/
def findStep (t : ATree K V) (sel : Selection K) (st : FindState) (k : GoString) (q : ValueQuery K) : FindState :=
  let all := ((alookup seq k t.keys).getD []).filter (fun vn => treeSelects q.cmp q.value q.tr vn.1) |>.flatMap (fun vn => nodeIds sel.min sel.max vn.2)
  let join (s : Option GSet) : Option GSet := match s with | some s => some (s.inter all) | none => some (GSet.new all)
  if q.cmp = .ne then { st with invalid := join st.invalid } else { st with valid := join st.valid }

/-- The loop with its early exit (threadsafe_query.go:301-303): `inl` = returned from inside the loop. -/
def findLoop (t : ATree K V) (sel : Selection K) : List (GoString × ValueQuery K) → FindState → GSet ⊕ FindState
  | [], st => .inr st
  | kq :: rest, st =>
    let st' := findStep t sel st kq.1 kq.2
    match st'.valid with
    | some [] => .inl []
    | _ => findLoop t sel rest st'

/-- threadsafe_query.go:135-326 `findIDs`. -/
def ATree.findIDs (t : ATree K V) (sel : Selection K) : GSet :=
  if sel.ids ≠ [] then
    sel.ids.foldl (fun s id => match t.itemById id with
      | some i => if sel.matchKeyValues i.kvs then s.add id else s
      | none => s) []
  else
    match findLoop t sel sel.kvs ⟨none, none⟩ with
    | .inl s => s
    | .inr st =>
      let valid := st.valid.getD (GSet.new (t.keys.flatMap (fun kv => kv.2.flatMap (fun vn => nodeIds sel.min sel.max vn.2))))
      (st.invalid.getD []).foldl GSet.remove valid

mutual
/-- threadsafe_query.go:87-133 `query`: `none` = a method called on a nil set (panic), `some none` = a nil set is returned. -/
def ATree.query (t : ATree K V) : Query K → Option (Option GSet)
  | .mk sel or and _ =>
    let s0 : Option GSet := sel.map t.findIDs
    match t.queryAnds sel.isSome s0 and with
    | none => none
    | some (counter, s1) => t.queryOrs counter s1 or
/-- threadsafe_query.go:99-115; `counter` = validCounter ≥ 1. -/
def ATree.queryAnds (t : ATree K V) : Bool → Option GSet → List (Query K) → Option (Bool × Option GSet)
  | counter, s, [] => some (counter, s)
  | counter, s, q :: qs =>
    match counter, s with
    | true, none => none
    | true, some [] => some (true, some [])
    | counter, s =>
      match t.query q with
      | none => none
      | some sub =>
        if counter then
          match s, sub with
          | some s, some sub => t.queryAnds true (some (s.inter sub)) qs
          | _, _ => none
        else t.queryAnds true sub qs
/-- threadsafe_query.go:118-130. -/
def ATree.queryOrs (t : ATree K V) : Bool → Option GSet → List (Query K) → Option (Option GSet)
  | _, s, [] => some s
  | counter, s, q :: qs =>
    match t.query q with
    | none => none
    | some sub =>
      if counter then
        match s, sub with
        | some s, some sub => t.queryOrs true (some (s.addBulk sub)) qs
        | _, _ => none
      else t.queryOrs true sub qs
end

/-- threadsafe_query.go:26-81 `QueryAction`: the items the callback is called on when it never stops (in Go in random order);
`none` = panic. -/
def ATree.queryAction (t : ATree K V) (q : Query K) : Option (List (Item K V)) :=
  match q with
  | .mk none [] [] true => some t.items
  | q => match t.query q with
    | some (some ids) => some (ids.filterMap t.itemById)
    | _ => none

mutual
/-- associated_action_query.go:100-133 `MatchTags`. -/
def Query.matchTags (kvs : KVs K) : Query K → Bool
  | .mk sel or and _ =>
    let matched := (match sel with | some s => s.matchKeyValues kvs | none => true) && Query.matchAll kvs and
    matched || Query.matchAny kvs or
/-- the loop over the And queries. -/
def Query.matchAll (kvs : KVs K) : List (Query K) → Bool
  | [] => true
  | q :: qs => Query.matchTags kvs q && Query.matchAll kvs qs
/-- the loop over the Or queries. -/
def Query.matchAny (kvs : KVs K) : List (Query K) → Bool
  | [] => false
  | q :: qs => Query.matchTags kvs q || Query.matchAny kvs qs
end

/-- associated_action_query.go:74-96 `KeyValuesToExactAssociatedActionQuery`. -/
def exactQuery (kvs : KVs K) : Query K :=
  .mk (some { kvs := kvs.map (fun kv => (kv.1, ⟨kv.2, .eq, ⟨typ kv.2, typ kv.2⟩⟩)), min := some kvs.length, max := some kvs.length }) [] [] true

/-- threadsafe_create.go:203-346 `CreateOrFind`: first an exact query, then the insertion. -/
def ATree.createOrFind (t : ATree K V) (kvs : KVs K) (onCreate : Option V) : Option (ATree K V × CreateOut K V) :=
  match t.queryAction (exactQuery kvs) with
  | none => none
  | some (i :: _) => some (t, .found i)
  | some [] => some (t.insert kvs onCreate true)

/-- threadsafe_delete.go:191-230 `DeleteByAssociatedID`. -/
def ATree.deleteById (t : ATree K V) (id : Nat) (can : Option (Item K V → Bool)) : Option (ATree K V × Option (Item K V)) :=
  match t.queryAction (.mk (some { ids := [id] }) [] [] true) with
  | none => none
  | some (i :: _) => some (t.delete i.kvs can)
  | some [] => some (t, none)

/-- The node access `idNode.ids[keyLength-1]` of threadsafe_destroy.go:100 / threadsafe_delete.go:240 does not panic. -/
def idPresent (ix : Index K) (n : Nat) (kv : GoString × K) : Bool :=
  match ix.node kv.1 kv.2 with | some nd => decide (n ≤ nd.length) | none => true

/-- threadsafe_destroy.go:95-142 `destroyKeyValues` and threadsafe_delete.go:244-304 `deleteKeyValues`: take one id out of the index;
`none` = index out of range. -/
def dropKeyValues (id : Nat) (n : Nat) : KVs K → Index K → Option (Index K)
  | [], ix => some ix
  | kv :: kvs, ix => if idPresent ix n kv then dropKeyValues id n kvs (ix.cleanup kv.1 kv.2 (removeId n id)) else none

/-- threadsafe_destroy.go:15-53 `DestroyByAssociatedID`. -/
def ATree.destroyById (t : ATree K V) (id : Nat) (can : Option (Item K V → Bool)) : Option (ATree K V × Option (Item K V)) :=
  match t.itemById id with
  | none => some (t, none)
  | some i =>
    if (match can with | some f => f i | none => true) then
      match dropKeyValues id i.kvs.length i.kvs t.keys with
      | none => none
      | some ix => some ({ t with keys := ix, items := t.items.filter (fun j => j.id != id) }, if can.isSome then some i else none)
    else some (t, some i)

/-- threadsafe_destroy.go:61-90 `DestroyTree` (with a stateful callback), over the items in the order of the id tree. -/
def ATree.destroyTree {S : Type} (can : S → Item K V → S × Bool) : List (Item K V) → ATree K V → S → Option (ATree K V × S)
  | [], t, s => some (t, s)
  | i :: is, t, s =>
    match can s i with
    | (s', false) => some (t, s')
    | (s', true) =>
      match dropKeyValues i.id i.kvs.length i.kvs t.keys with
      | none => none
      | some ix => ATree.destroyTree can is { t with keys := ix, items := t.items.filter (fun j => j.id != i.id) } s'

/-! ### Matches -/

/-- match_key_values.go:42-45. -/
structure MatchValue (K : Type) where
  value : K
  tr : TypeRestrictions

/-- match_query.go:14-22; `kvs` in sorted key order. -/
structure MatchQuery (K : Type) where
  kvs : List (GoString × MatchValue K)
  min : Option Int := none
  max : Option Int := none

/-- threadsafe_match.go:56-57. -/
def belowMin (min : Option Int) (index : Nat) : Bool := match min with | some m => decide (((index : Int) + 1) < m) | none => false
/-- threadsafe_match.go:64-65. -/
def aboveMax (max : Option Int) (index : Nat) : Bool := match max with | some m => decide (((index : Int) + 1) > m) | none => false

/-- threadsafe_match.go:50-79 `findValue`: merge one id node into the per-size lists of the key. -/
def mergeNode (min max : Option Int) : List (List Nat) → Nat → IdNode → Option (List (List Nat))
  | acc, _, [] => some acc
  | acc, index, ids :: rest =>
    if belowMin min index then mergeNode min max (acc ++ [[]]) (index + 1) rest
    else if aboveMax max index then some acc
    else
      let acc' := if (acc.length : Int) - 1 ≥ index then acc else acc ++ [[]]
      match acc'[index]? with
      | none => none
      | some l => mergeNode min max (acc'.set index (l ++ ids)) (index + 1) rest

/-- threadsafe_match.go:46-97 for one key: `none` = panic. -/
def keyIds (t : ATree K V) (mq : MatchQuery K) (k : GoString) (m : MatchValue K) : Option (List (List Nat)) :=
  (((alookup seq k t.keys).getD []).filter (fun vn => treeSelects .eq m.value m.tr vn.1)).foldl
    (fun acc vn => acc.bind (fun a => mergeNode mq.min mq.max a 0 vn.2)) (some [])

end

/-! ### GenerateStringPermutations -/

section
variable {A : Type}

/-- The tests `minKeys <= n && (n <= maxKeys || maxKeys == -1)`. -/
def sizeOk (min max : Int) (n : Nat) : Bool := decide (min ≤ n) && (decide ((n : Int) ≤ max) || decide (max = -1))

/-- slice_manipulation.go:114-117: the loop of `generateStringGroups` over the suffix, with the recursive call written out. -/
def genGroupsLoop (min max : Int) : List A → List A → List (List A)
  | _, [] => []
  | pre, x :: xs =>
    (if ¬ ((pre ++ [x]).length : Int) < min ∧ ¬ sizeOk min max (pre ++ [x]).length then []
     else (if sizeOk min max (pre ++ [x]).length then [pre ++ [x]] else []) ++ genGroupsLoop min max (pre ++ [x]) xs) ++
      genGroupsLoop min max pre xs

/-- slice_manipulation.go:95-120 `generateStringGroups`. -/
def genGroups (min max : Int) (pre : List A) (suffix : List A) : List (List A) :=
  if ¬ (pre.length : Int) < min ∧ ¬ sizeOk min max pre.length then []
  else (if sizeOk min max pre.length then [pre] else []) ++ genGroupsLoop min max pre suffix

/-- the loop of slice_manipulation.go:85-89. -/
def genPairsLoop (min max : Int) (first : A) : List A → List (List A)
  | [] => []
  | x :: xs => genGroups min max [first, x] xs ++ genPairsLoop min max first xs

/-- slice_manipulation.go:63-93 `generateStringPairs`. -/
def genPairs (min max : Int) : List A → List (List A)
  | [] => []
  | [k] => if decide (1 < min) || (decide (1 > max) && decide (max ≠ -1)) then [] else [[k]]
  | k :: k2 :: ks =>
    (if decide (min ≤ 1) && (decide (max ≥ 1) || decide (max = -1)) then [[k]] else []) ++
      genPairs min max (k2 :: ks) ++ genPairsLoop min max k (k2 :: ks)

end

/-- Insertion before the first element that is not smaller. -/
def stableInsert {A : Type} (le : A → A → Bool) (a : A) : List A → List A
  | [] => [a]
  | b :: l => if le a b then a :: b :: l else b :: stableInsert le a l

/-- A stable sort (the standard library's sort.SliceStable; as here, an insertion sort for short slices). -/
def stableSort {A : Type} (le : A → A → Bool) : List A → List A
  | [] => []
  | a :: l => stableInsert le a (stableSort le l)

/-- sort.Strings. -/
def sortStrings (l : List GoString) : List GoString := stableSort (fun a b => !strLt b a) l

/-- The element-wise comparison of slice_manipulation.go:45-54 (the groups have one length; the last case would be an index out of range). -/
def lexLe : List GoString → List GoString → Bool
  | [], _ => true
  | a :: as, b :: bs => if strLt a b then true else if strLt b a then false else lexLe as bs
  | _ :: _, [] => false

/-- slice_manipulation.go:36-58, the `less` function of the sort (it answers true on equal groups). -/
def groupLe (a b : List GoString) : Bool :=
  if a.length < b.length then true
  else if a.length = b.length then lexLe (sortStrings a) (sortStrings b) else false

/-- slice_manipulation.go:25-61 `GenerateStringPermutations` (`none` = error).  That the
comparison also sorts the strings inside the groups it looks at is left out (a group stands for its set of keys). -/
def genPermutations (keys : List GoString) (min max : Int) : Option (List (List GoString)) :=
  if min > max ∧ max ≠ -1 then none else some (stableSort groupLe (genPairs min max keys))

section
variable [KeyOps K]

/-- threadsafe_match.go:118-137: the ids of one grouping of keys. -/
def groupIds (found : List (GoString × List (List Nat))) (grouping : List GoString) : GSet :=
  let rec loop : Nat → GSet → List GoString → GSet
    | _, s, [] => s
    | i, s, k :: ks =>
      let ids := (alookup seq k found).getD []
      if ids.length < grouping.length then []
      else
        let l := ids.getD (grouping.length - 1) []
        loop (i + 1) (if i = 0 then s.addBulk l else s.inter l) ks
  loop 0 [] grouping

/-- The keys that were found, with their per-size ids (threadsafe_match.go:44-103: `keyIDs` has an entry for a key only if some id node with
at least one list was visited). -/
def foundKeys (t : ATree K V) (mq : MatchQuery K) : List (GoString × MatchValue K) → Option (List (GoString × List (List Nat)))
  | [] => some []
  | kv :: rest =>
    match keyIds t mq kv.1 kv.2, foundKeys t mq rest with
    | some ids, some r => some (if ids.isEmpty then r else (kv.1, ids) :: r)
    | _, _ => none

/-- threadsafe_match.go:30-153 `MatchAction`: the items the callback is called on when it never stops; `none` = panic.
`shuffle` is the random order in which Go ranges over the map of found keys (100-102). -/
def ATree.matchAction (t : ATree K V) (shuffle : List GoString → List GoString) (mq : MatchQuery K) : Option (List (Item K V)) :=
  match foundKeys t mq mq.kvs with
  | none => none
  | some found =>
    match genPermutations (shuffle (found.map (·.1))) (mq.min.getD 0) (mq.max.getD (-1)) with
    | none => none
    | some groups => some ((groups.flatMap (groupIds found)).filterMap t.itemById)

/-- match_query.go:40-56 `KeyValuesToAnyMatchActionQuery`. -/
def anyMatchQuery (kvs : KVs K) : MatchQuery K := ⟨kvs.map (fun kv => (kv.1, ⟨kv.2, ⟨typ kv.2, DataType.any⟩⟩)), none, none⟩

end
end Willow.Assoc
