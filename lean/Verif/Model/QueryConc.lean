import Verif.Model.AssocConc
import Verif.Model.Assoc
/-
QueryAction of the associated tree (internal/datastructures/btree_associated/threadsafe_query.go:26-326) with any query, used while any number of other calls
create, find and remove items (Model/AssocConc: the steps of these calls are the ones there).

* One step each: reading one ID node under its read lock (lines 168-198); the search for one id in the tree of ids, with the callback that runs inside it.
* A search through the values of a key, or through everything, visits the pairs in any order; a pair that is in the index from the beginning of the search to its
  end, with the same ID node, is visited; one that comes or goes meanwhile may be visited or not, and one that is
  removed and added again more than once.  (The B+ tree is walked with the locks
  of the nodes on the way held; the walk itself is modelled in Model/BTree, its interleavings are not.)
* The set operations between the searches touch nothing shared and are no steps.
* The order in which Go ranges over the set of ids that is found is arbitrary.
* Calling a method on a nil set panics: `panic`.
-/
namespace Willow.QueryConc
open Willow.AssocConc (St Step Item Event)
open Willow.Assoc (Query Selection ValueQuery GSet FindState KVs)

variable {K A : Type}

/-- A search in the index: threadsafe_query.go:212-217 and the others, for one key of the query; lines 310-317 for everything (`key = none`).  The bounds are those
of lines 174-189. -/
structure Search (K : Type) where
  key : Option (GoString × ValueQuery K)
  min : Option Int
  max : Option Int

/-- The rest of a query after the steps taken so far. -/
inductive Prog (K : Type) where
  /-- the set of ids is computed; `none`: a method is called on a nil set (panic) -/
  | ret (r : Option GSet)
  /-- a search in the index, and what comes after it -/
  | search (q : Search K) (k : List Nat → Prog K)
  /-- an id is looked up (threadsafe_query.go:140-160), and what comes after it -/
  | lookup (id : Nat) (k : Option (KVs K) → Prog K)

section
variable [KeyOps K]

/-- Which pairs a search visits: the values of its key that the search of the values tree selects (C11-C14). -/
def Search.covers (q : Search K) (p : GoString × K) : Bool :=
  match q.key with
  | none => true
  | some kq => p.1 == kq.1 && Assoc.treeSelects kq.2.cmp kq.2.value kq.2.tr p.2

/-- threadsafe_query.go:141-150: an id that was found is added if the item matches. -/
def take (sel : Selection K) (acc : GSet) (id : Nat) (o : Option (KVs K)) : GSet :=
  match o with
  | some kvs => if sel.matchKeyValues kvs then acc.add id else acc
  | none => acc

/-- threadsafe_query.go:137-166: the ids of the selection, one after the other. -/
def lookups (sel : Selection K) : List Nat → GSet → (GSet → Prog K) → Prog K
  | [], acc, k => k acc
  | id :: ids, acc, k => .lookup id fun o => lookups sel ids (take sel acc id o) k

/-- threadsafe_query.go:219-224, 233-238 and the others. -/
def join (s : Option GSet) (all : List Nat) : Option GSet :=
  match s with
  | some s => some (s.inter all)
  | none => some (GSet.new all)

/-- threadsafe_query.go:211-298: what was found for one key is added to the valid ids, or to the invalid ones. -/
def joinStep (st : FindState) (q : ValueQuery K) (all : List Nat) : FindState :=
  if q.cmp = .ne then { st with invalid := join st.invalid all } else { st with valid := join st.valid all }

/-- threadsafe_query.go:207-303: the keys of the selection, one after the other, with the early exit (`inl`). -/
def keyLoop (sel : Selection K) : List (GoString × ValueQuery K) → FindState → (GSet ⊕ FindState → Prog K) → Prog K
  | [], st, k => k (.inr st)
  | kq :: rest, st, k => .search ⟨some kq, sel.min, sel.max⟩ fun all =>
      if (joinStep st kq.2 all).valid = some [] then k (.inl []) else keyLoop sel rest (joinStep st kq.2 all) k

/-- threadsafe_query.go:321-323 -/
def without (valid : GSet) (invalid : Option GSet) : GSet := (invalid.getD []).foldl GSet.remove valid

/-- threadsafe_query.go:305-326: if no key added valid ids, everything is searched; then the invalid ids are removed. -/
def lastly (sel : Selection K) (k : GSet → Prog K) : GSet ⊕ FindState → Prog K
  | .inl s => k s
  | .inr ⟨some v, inv⟩ => k (without v inv)
  | .inr ⟨none, inv⟩ => .search ⟨none, sel.min, sel.max⟩ fun all => k (without (GSet.new all) inv)

/-- threadsafe_query.go:135-326 `findIDs`. -/
def findIDs (sel : Selection K) (k : GSet → Prog K) : Prog K :=
  if sel.ids ≠ [] then lookups sel sel.ids [] k else keyLoop sel sel.kvs ⟨none, none⟩ (lastly sel k)

mutual
/-- threadsafe_query.go:87-133 `query`; the continuation gets the set, `none`: a nil set. -/
def query : Query K → (Option GSet → Prog K) → Prog K
  | .mk (some sel) or and _, k => findIDs sel fun s => queryAnds true (some s) and fun c s1 => queryOrs c s1 or k
  | .mk none or and _, k => queryAnds false none and fun c s1 => queryOrs c s1 or k
/-- threadsafe_query.go:99-115; `counter`: validCounter ≥ 1. -/
def queryAnds : Bool → Option GSet → List (Query K) → (Bool → Option GSet → Prog K) → Prog K
  | c, s, [], k => k c s
  | true, none, _ :: _, _ => .ret none
  | true, some s, q :: qs, k => if s = [] then k true (some []) else query q fun sub => match sub with
      | some sub => queryAnds true (some (s.inter sub)) qs k
      | none => .ret none
  | false, _, q :: qs, k => query q fun sub => queryAnds true sub qs k
/-- threadsafe_query.go:118-130 -/
def queryOrs : Bool → Option GSet → List (Query K) → (Option GSet → Prog K) → Prog K
  | _, s, [], k => k s
  | true, s, q :: qs, k => query q fun sub => match s, sub with
      | some s, some sub => queryOrs true (some (s.addBulk sub)) qs k
      | _, _ => .ret none
  | false, _, q :: qs, k => query q fun sub => queryOrs true sub qs k
end

/-- threadsafe_query.go:43, 57: the empty query selects everything. -/
def selectsAll : Query K → Bool
  | .mk none [] [] true => true
  | _ => false

end

/-- Where a query is; `got`: the items the callback was called with. -/
inductive Phase (K A : Type) where
  /-- threadsafe_query.go:57, between two searches -/
  | think (p : Prog K)
  /-- in a search of the index.  `start`: the index when it began; the pairs visited; the ids read from them -/
  | search (q : Search K) (start : GoString × K → Option Nat) (seen : List (GoString × K)) (ids : List Nat) (k : List Nat → Prog K)
  /-- threadsafe_query.go:59-78: the ids still to be searched for -/
  | visit (ids : List Nat) (got : List (Nat × Item K A))
  /-- threadsafe_query.go:44-50: walking through all items.  `start`: the items when it began -/
  | scan (start : Nat → Option (Item K A)) (got : List (Nat × Item K A))
  /-- it has returned, or is about to -/
  | done (got : List (Nat × Item K A))
  /-- it has panicked -/
  | panicked

/-- A query under way: the query, what the callback answers (true: go on), and where it is. -/
structure Job (K A : Type) where
  query : Query K
  more : A → Bool
  phase : Phase K A
  returned : Bool := false

/-- The tree with the calls that create, find and remove items, and the queries. -/
structure Sys (K A : Type) where
  tree : St K A
  js : List (Job K A)

/-- threadsafe_associated.go:47-64: a new tree. -/
def Sys.init [Inhabited K] : Sys K A := ⟨St.init, []⟩

/-- What happens. -/
inductive Ev (K A : Type) where
  /-- a call that is not a query is made, or returns -/
  | other (e : Event K A)
  /-- QueryAction is called -/
  | call (q : Query K) (more : A → Bool)
  /-- the callback of query `m` is called with this item -/
  | report (m id : Nat) (it : Item K A)
  /-- query `m` panics -/
  | panic (m : Nat)
  /-- query `m` returns; the callback was called with these items -/
  | ret (m : Nat) (got : List (Nat × Item K A))

/-- Query `m` goes on. -/
def Sys.to (s : Sys K A) (m : Nat) (x : Job K A) (p : Phase K A) : Sys K A := { s with js := s.js.set m { x with phase := p } }

section
variable [KeyOps K]

/-- threadsafe_query.go:42-57: where a query begins. -/
def start (s : St K A) (q : Query K) : Phase K A :=
  if selectsAll q then .scan s.item [] else .think (query q .ret)

/-- threadsafe_query.go:168-198: the ID node of one pair is read; `none`: it is locked, or there is none. -/
def nextNode (s : St K A) (q : Search K) (start : GoString × K → Option Nat) (seen : List (GoString × K)) (ids : List Nat) (k : List Nat → Prog K) (p : GoString × K) : Option (Phase K A) :=
  match s.index p with
  | none => none
  | some i => if (s.node i).owner ≠ none then none else some (.search q start (p :: seen) (ids ++ Assoc.nodeIds q.min q.max (s.node i).ids) k)

/-- threadsafe_query.go:152-160 with btree/threadsafe_find.go:34-37: what is found under an id; `none`: the search has to wait. -/
def lookAt (blocks : (Nat → Option (Item K A)) → Nat → Nat → Bool) (s : St K A) (id : Nat) : Option (Option (KVs K)) :=
  if id ∈ s.destroying then some none
  else if s.busy blocks id then none
  else some ((s.item id).map (·.kvs))

/-- threadsafe_query.go:59-78 when the callback was called with the item: the end if the callback says so. -/
def afterReport (more : A → Bool) (id : Nat) (it : Item K A) (rest : List Nat) (got : List (Nat × Item K A)) : Phase K A :=
  if more it.val then .visit rest (got ++ [(id, it)]) else .done (got ++ [(id, it)])

/-- threadsafe_query.go:44-50 when the callback was called with the item: btree/threadsafe_find.go goes on as long as the callback says so. -/
def afterScan (more : A → Bool) (start : Nat → Option (Item K A)) (id : Nat) (it : Item K A) (got : List (Nat × Item K A)) : Phase K A :=
  if more it.val then .scan start (got ++ [(id, it)]) else .done (got ++ [(id, it)])

/-- All interleavings. -/
inductive QStep [DecidableEq K] (blocks : (Nat → Option (Item K A)) → Nat → Nat → Bool) : Sys K A → Option (Ev K A) → Sys K A → Prop where
  /-- a step of the other calls (Model/AssocConc) -/
  | other {s : Sys K A} {e : Option (Event K A)} {t' : St K A} (h : Step blocks s.tree e t') : QStep blocks s (e.map .other) { s with tree := t' }
  /-- QueryAction is called -/
  | call {s : Sys K A} (q : Query K) (more : A → Bool) :
      QStep blocks s (some (.call q more)) { s with js := s.js ++ [⟨q, more, start s.tree q, false⟩] }
  /-- a search begins -/
  | search {s : Sys K A} (m : Nat) (x : Job K A) {q : Search K} {k : List Nat → Prog K} (hm : s.js[m]? = some x) (hp : x.phase = .think (.search q k)) :
      QStep blocks s none (s.to m x (.search q s.tree.index [] [] k))
  /-- an ID node is read -/
  | node {s : Sys K A} (m : Nat) (x : Job K A) {q : Search K} {start : GoString × K → Option Nat} {seen : List (GoString × K)} {ids : List Nat} {k : List Nat → Prog K} (p : GoString × K)
      {ph : Phase K A} (hm : s.js[m]? = some x) (hp : x.phase = .search q start seen ids k) (hc : q.covers p = true)
      (hn : nextNode s.tree q start seen ids k p = some ph) : QStep blocks s none (s.to m x ph)
  /-- a search ends -/
  | found {s : Sys K A} (m : Nat) (x : Job K A) {q : Search K} {start : GoString × K → Option Nat} {seen : List (GoString × K)} {ids : List Nat} {k : List Nat → Prog K}
      (hm : s.js[m]? = some x) (hp : x.phase = .search q start seen ids k)
      (hall : ∀ p, q.covers p = true → start p ≠ none → s.tree.index p = start p → p ∈ seen) : QStep blocks s none (s.to m x (.think (k ids)))
  /-- an id of a selection is looked up -/
  | lookup {s : Sys K A} (m : Nat) (x : Job K A) {id : Nat} {k : Option (KVs K) → Prog K} {o : Option (KVs K)} (hm : s.js[m]? = some x) (hp : x.phase = .think (.lookup id k))
      (ho : lookAt blocks s.tree id = some o) : QStep blocks s none (s.to m x (.think (k o)))
  /-- the ids are computed -/
  | eval {s : Sys K A} (m : Nat) (x : Job K A) {g : GSet} (ids : List Nat) (hm : s.js[m]? = some x) (hp : x.phase = .think (.ret (some g))) (ho : ids.Perm g) :
      QStep blocks s none (s.to m x (.visit ids []))
  /-- a method is called on a nil set -/
  | panic {s : Sys K A} (m : Nat) (x : Job K A) (hm : s.js[m]? = some x) (hp : x.phase = .think (.ret none)) : QStep blocks s (some (.panic m)) (s.to m x .panicked)
  /-- an id is found -/
  | report {s : Sys K A} (m : Nat) (x : Job K A) {id : Nat} {rest : List Nat} {got : List (Nat × Item K A)} {it : Item K A} (hm : s.js[m]? = some x)
      (hp : x.phase = .visit (id :: rest) got) (hd : id ∉ s.tree.destroying) (hb : s.tree.busy blocks id = false) (hi : s.tree.item id = some it) :
      QStep blocks s (some (.report m id it)) (s.to m x (afterReport x.more id it rest got))
  /-- an id is not found: it is being destroyed, or it is not there (`shouldContinue` is still true) -/
  | miss {s : Sys K A} (m : Nat) (x : Job K A) {id : Nat} {rest : List Nat} {got : List (Nat × Item K A)} (hm : s.js[m]? = some x)
      (hp : x.phase = .visit (id :: rest) got) (h : id ∈ s.tree.destroying ∨ (s.tree.busy blocks id = false ∧ s.tree.item id = none)) :
      QStep blocks s none (s.to m x (.visit rest got))
  /-- no ids are left -/
  | finish {s : Sys K A} (m : Nat) (x : Job K A) {got : List (Nat × Item K A)} (hm : s.js[m]? = some x) (hp : x.phase = .visit [] got) :
      QStep blocks s none (s.to m x (.done got))
  /-- the walk through all items comes to an item -/
  | scan {s : Sys K A} (m : Nat) (x : Job K A) {start : Nat → Option (Item K A)} {got : List (Nat × Item K A)} (id : Nat) {it : Item K A} (hm : s.js[m]? = some x)
      (hp : x.phase = .scan start got) (hn : id ∉ got.map (·.1)) (hb : s.tree.busy blocks id = false) (hi : s.tree.item id = some it) :
      QStep blocks s (some (.report m id it)) (s.to m x (afterScan x.more start id it got))
  /-- the walk through all items is over -/
  | scanned {s : Sys K A} (m : Nat) (x : Job K A) {start : Nat → Option (Item K A)} {got : List (Nat × Item K A)} (hm : s.js[m]? = some x) (hp : x.phase = .scan start got)
      (hall : ∀ id, start id ≠ none → s.tree.item id ≠ none → id ∈ got.map (·.1)) : QStep blocks s none (s.to m x (.done got))
  /-- QueryAction returns -/
  | ret {s : Sys K A} (m : Nat) (x : Job K A) {got : List (Nat × Item K A)} (hm : s.js[m]? = some x) (hp : x.phase = .done got) (hr : x.returned = false) :
      QStep blocks s (some (.ret m got)) { s with js := s.js.set m { x with returned := true } }

/-- A run in which all states satisfy `P`; the events seen, in order. -/
inductive QRun [DecidableEq K] (blocks : (Nat → Option (Item K A)) → Nat → Nat → Bool) (P : Sys K A → Prop) : Sys K A → List (Ev K A) → Sys K A → Prop where
  | nil {s : Sys K A} (h : P s) : QRun blocks P s [] s
  | step {s s' s'' : Sys K A} {evs : List (Ev K A)} {e : Option (Ev K A)} (h : QRun blocks P s evs s') (h' : QStep blocks s' e s'') (hP : P s'') :
      QRun blocks P s (evs ++ e.toList) s''

end

end Willow.QueryConc
