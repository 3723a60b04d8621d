import Verif.Model.AssocConc
import Verif.Model.Assoc
/-
MatchAction of the associated tree (internal/datastructures/btree_associated/threadsafe_match.go:30-153), used while any number of other calls create, find and
remove items (Model/AssocConc: the steps of these calls are the ones there).

* One step each: looking up the ID node of one pair and copying its ids under the read lock of the node; the search for one id in the tree of ids, with the callback
  that runs inside it.
* A match query is, for every key, the values it accepts: for KeyValuesToAnyMatchActionQuery (match_query.go:41-56) the value itself and `any`.  The code looks them
  up in one search of the values tree; here they are two steps.  The bounds on the number of key-values (MinNumberOfPermutationKeyValues and Max...) are left
  out: the limiter's own searches have none (Model/Assoc has them).
* The orders in which Go ranges over the map of found keys and over a set of ids are arbitrary.
-/
namespace Willow.MatchConc
open Willow.AssocConc (St Step Item Event)

variable {V A : Type}

/-- match_query.go:14-22: the keys with the values each of them accepts. -/
abbrev Query (V : Type) := List (GoString × List V)

/-- The pairs a query looks up, in order (threadsafe_match.go:46-97). -/
def pairs (q : Query V) : List (GoString × V) := q.flatMap fun kv => kv.2.map fun v => (kv.1, v)

/-- threadsafe_match.go:50-79 without bounds: add the ids of an ID node to those of its key, by number of key-values. -/
def merge : List (List Nat) → List (List Nat) → List (List Nat)
  | acc, [] => acc
  | [], nd => nd
  | a :: acc, b :: nd => (a ++ b) :: merge acc nd

/-- threadsafe_match.go:44-97: `keyIDs` after another ID node; a node without lists adds no entry. -/
def record (k : GoString) (nd : List (List Nat)) (found : List (GoString × List (List Nat))) : List (GoString × List (List Nat)) :=
  if nd = [] then found else Assoc.aupsert Assoc.seq k (fun o => merge (o.getD []) nd) found

/-- threadsafe_match.go:99-139: the ids to be searched for.  `keys`: the found keys in the order the map was ranged over; `order`: the ids of one group of keys in the
order the set was ranged over. -/
def targets (keys : List GoString) (order : List GoString → List Nat) : List Nat :=
  ((Assoc.genPermutations keys 0 (-1)).getD []).flatMap order

/-- Where a match is. -/
inductive Phase (V A : Type) where
  /-- threadsafe_match.go:45-97: the pairs still to be looked up, what was found -/
  | read (todo : List (GoString × V)) (found : List (GoString × List (List Nat)))
  /-- threadsafe_match.go:139-151: the ids still to be searched for, the items the callback was called with -/
  | visit (ids : List Nat) (got : List (Nat × Item V A))
  /-- it has returned, or is about to -/
  | done (got : List (Nat × Item V A))

/-- A match: the query, what the callback answers (true: go on), and where it is. -/
structure Matcher (V A : Type) where
  query : Query V
  more : A → Bool
  phase : Phase V A
  returned : Bool := false

/-- The tree with the calls that create, find and remove items, and the matches. -/
structure Sys (V A : Type) where
  tree : St V A
  ms : List (Matcher V A)

/-- A new tree. -/
def Sys.init [Inhabited V] : Sys V A := ⟨St.init, []⟩

/-- What happens. -/
inductive Ev (V A : Type) where
  /-- a call that is not a match is made, or returns -/
  | other (e : Event V A)
  /-- MatchAction is called -/
  | call (q : Query V) (more : A → Bool)
  /-- the callback of match `m` is called with this item -/
  | report (m id : Nat) (it : Item V A)
  /-- match `m` does not find an id it had read in the index: it is being destroyed, or gone (threadsafe_match.go:140-144: no callback is called) -/
  | miss (m id : Nat)
  /-- match `m` returns; the callback was called with these items -/
  | ret (m : Nat) (got : List (Nat × Item V A))

/-- Match `m` goes on. -/
def Sys.to (s : Sys V A) (m : Nat) (x : Matcher V A) (p : Phase V A) : Sys V A := { s with ms := s.ms.set m { x with phase := p } }

/-- threadsafe_match.go:48-97: one pair; `none`: the ID node is locked. -/
def nextRead (s : St V A) (found : List (GoString × List (List Nat))) (p : GoString × V) (rest : List (GoString × V)) : Option (Phase V A) :=
  match s.index p with
  | none => some (.read rest found)
  | some i => if (s.node i).owner ≠ none then none else some (.read rest (record p.1 (s.node i).ids found))

/-- threadsafe_match.go:139-151 when the id is found and the callback called with the item: the end if the callback says so. -/
def afterReport (more : A → Bool) (id : Nat) (it : Item V A) (rest : List Nat) (got : List (Nat × Item V A)) : Phase V A :=
  if more it.val then .visit rest (got ++ [(id, it)]) else .done (got ++ [(id, it)])

/-- threadsafe_match.go:139-151 when the search finds nothing: `shouldContinue` is false (line 140), the match is over (line 148). -/
def afterMiss (_rest : List Nat) (got : List (Nat × Item V A)) : Phase V A := .done got

/-- All interleavings. -/
inductive MStep [DecidableEq V] (blocks : (Nat → Option (Item V A)) → Nat → Nat → Bool) : Sys V A → Option (Ev V A) → Sys V A → Prop where
  /-- a step of the other calls (Model/AssocConc) -/
  | other {s : Sys V A} {e : Option (Event V A)} {t' : St V A} (h : Step blocks s.tree e t') : MStep blocks s (e.map .other) { s with tree := t' }
  /-- MatchAction is called; the query has every key once -/
  | call {s : Sys V A} (q : Query V) (more : A → Bool) (h : (q.map (·.1)).Nodup) :
      MStep blocks s (some (.call q more)) { s with ms := s.ms ++ [⟨q, more, .read (pairs q) [], false⟩] }
  /-- one pair is looked up -/
  | read {s : Sys V A} (m : Nat) (x : Matcher V A) {p : GoString × V} {rest : List (GoString × V)} {found : List (GoString × List (List Nat))} {ph : Phase V A}
      (hm : s.ms[m]? = some x) (hp : x.phase = .read (p :: rest) found) (hn : nextRead s.tree found p rest = some ph) : MStep blocks s none (s.to m x ph)
  /-- the ids are computed -/
  | group {s : Sys V A} (m : Nat) (x : Matcher V A) {found : List (GoString × List (List Nat))} (keys : List GoString) (order : List GoString → List Nat)
      (hm : s.ms[m]? = some x) (hp : x.phase = .read [] found) (hk : keys.Perm (found.map (·.1))) (ho : ∀ g, (order g).Perm (Assoc.groupIds found g)) :
      MStep blocks s none (s.to m x (.visit (targets keys order) []))
  /-- an id is found -/
  | report {s : Sys V A} (m : Nat) (x : Matcher V A) {id : Nat} {rest : List Nat} {got : List (Nat × Item V A)} {it : Item V A} (hm : s.ms[m]? = some x)
      (hp : x.phase = .visit (id :: rest) got) (hd : id ∉ s.tree.destroying) (hb : s.tree.busy blocks id = false) (hi : s.tree.item id = some it) :
      MStep blocks s (some (.report m id it)) (s.to m x (afterReport x.more id it rest got))
  /-- an id is not found: it is being destroyed, or it is not there -/
  | miss {s : Sys V A} (m : Nat) (x : Matcher V A) {id : Nat} {rest : List Nat} {got : List (Nat × Item V A)} (hm : s.ms[m]? = some x)
      (hp : x.phase = .visit (id :: rest) got) (h : id ∈ s.tree.destroying ∨ (s.tree.busy blocks id = false ∧ s.tree.item id = none)) :
      MStep blocks s (some (.miss m id)) (s.to m x (afterMiss rest got))
  /-- no ids are left -/
  | finish {s : Sys V A} (m : Nat) (x : Matcher V A) {got : List (Nat × Item V A)} (hm : s.ms[m]? = some x) (hp : x.phase = .visit [] got) :
      MStep blocks s none (s.to m x (.done got))
  /-- MatchAction returns -/
  | ret {s : Sys V A} (m : Nat) (x : Matcher V A) {got : List (Nat × Item V A)} (hm : s.ms[m]? = some x) (hp : x.phase = .done got) (hr : x.returned = false) :
      MStep blocks s (some (.ret m got)) { s with ms := s.ms.set m { x with returned := true } }

/-- A run in which all states satisfy `P`; the events seen, in order. -/
inductive MRun [DecidableEq V] (blocks : (Nat → Option (Item V A)) → Nat → Nat → Bool) (P : Sys V A → Prop) : Sys V A → List (Ev V A) → Sys V A → Prop where
  | nil {s : Sys V A} (h : P s) : MRun blocks P s [] s
  | step {s s' s'' : Sys V A} {evs : List (Ev V A)} {e : Option (Ev V A)} (h : MRun blocks P s evs s') (h' : MStep blocks s' e s'') (hP : P s'') :
      MRun blocks P s (evs ++ e.toList) s''

end Willow.MatchConc
