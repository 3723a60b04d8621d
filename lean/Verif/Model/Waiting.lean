import Verif.Model.Assoc
import Verif.Model.Queue
/-
Consumers that wait for an item (queue_channels_client_local.go:213-278 `DequeueQueueItem`) against the creation of channels
(queue_channels_client_local.go:152-197 `EnqueueQueueItem`), at the granularity of the locks of the associated tree
(btree_associated/threadsafe_create.go:203-346, threadsafe_query.go:26-326).

One queue is modelled: other queues have their own associated tree, and `updateClientsWaiting` skips their clients.

Simplifications:
* A search in a B-tree visits every entry that exists when the search starts; entries made during the search are visited or not.
* Selections by ids are not modelled (the ids of channels are random and unknown before the channel exists).
* The searches of a query run in any order and overlap (the code runs them one after the other).
* A creation that fails, or that finds the channel made by somebody else meanwhile, is left out: it announces nothing.
* A channel is removed from the tree in one step.
-/
namespace Willow.Waiting
open Willow Willow.Assoc

/-- The creation of a channel.  `pc` counts its steps: with n key-values, after n steps its entries in the key and value trees exist
(threadsafe_create.go:242-244), after 2n their id nodes are locked (247-248), step 2n+1 is the announcement to waiting clients
(queue_channels_client_local.go:174 inside threadsafe_create.go:309), step 2n+2 the insertion into associatedIDs (323), and n more steps
unlock the nodes (328-331). -/
structure Prod where
  kvs : KVs Key
  pc : Nat
  /-- the channel was deleted again -/
  gone : Bool

/-- Node `i` exists. -/
def Prod.made (p : Prod) (i : Nat) : Bool := decide (i < p.pc)
/-- Node `i` is locked by this creation. -/
def Prod.holds (p : Prod) (i : Nat) : Bool := decide (p.kvs.length + i < p.pc) && decide (p.pc ≤ 2 * p.kvs.length + 2 + i)
/-- The waiting clients were informed. -/
def Prod.announced (p : Prod) : Bool := decide (2 * p.kvs.length + 1 ≤ p.pc)
/-- The channel is in associatedIDs. -/
def Prod.inserted (p : Prod) : Bool := decide (2 * p.kvs.length + 2 ≤ p.pc) && !p.gone
/-- Its id is in its id nodes (threadsafe_create.go:304-307; the nodes are locked then, so nobody can tell it from the announcement). -/
def Prod.listed (p : Prod) : Bool := p.announced && !p.gone
/-- All steps done. -/
def Prod.done (p : Prod) : Bool := decide (3 * p.kvs.length + 2 ≤ p.pc)

/-- A search in the index for one key of a selection (`some key`), or through everything (`none`, threadsafe_query.go:306-318).  The path
leads to the sub-query: 0, i is the i-th And, 1, i the i-th Or. -/
abbrev Leaf := List Nat × Option GoString

/-- A running or finished search (threadsafe_query.go:207-298): the nodes that existed at its start, those it visited, the ids it got. -/
structure Scan where
  existing : List (GoString × Key)
  visited : List (GoString × Key)
  seen : List Nat
  ended : Bool

/-- A client in `DequeueQueueItem`. -/
structure Cons where
  query : Query Key
  /-- in clientsWaiting -/
  registered : Bool
  scan : Leaf → Option Scan
  /-- ids whose lookup in associatedIDs is done (threadsafe_query.go:58-62) -/
  looked : List Nat
  /-- the empty query: channels that existed when the iteration of associatedIDs started, and those visited (threadsafe_query.go:42-52) -/
  iter : Option (List Nat × List Nat)
  /-- channels it listens to -/
  offered : List Nat
  /-- its search through the tree is over -/
  waiting : Bool

/-- Creations and clients; both are known by their position. -/
structure St where
  prods : List Prod
  cons : List Cons

/-- Nothing happened yet. -/
def St.init : St := ⟨[], []⟩

/-- The empty query (threadsafe_query.go:42). -/
def isEmpty : Query Key → Bool
  | .mk none [] [] true => true
  | _ => false

/-- The key of a search with a comparison that selects (all but !=). -/
def selecting (sel : Selection Key) : List (GoString × ValueQuery Key) := sel.kvs.filter (fun kq => decide (kq.2.cmp ≠ .ne))
/-- The != comparisons. -/
def excluding (sel : Selection Key) : List (GoString × ValueQuery Key) := sel.kvs.filter (fun kq => decide (kq.2.cmp = .ne))

/-- The selection at a path (threadsafe_query.go:87-133 walks the sub-queries). -/
def selAt : List Nat → Query Key → Option (Selection Key)
  | [], .mk sel _ _ _ => sel
  | [_], _ => none
  | b :: i :: rest, .mk _ or and _ => ((if b = 0 then and else or)[i]?).bind (selAt rest)

/-- Does the search of a leaf visit the node of this key and value (C11-C15 for the value trees)? -/
def covers (sel : Selection Key) (key : Option GoString) (k : GoString) (v : Key) : Bool :=
  match key with
  | none => true
  | some k0 => k == k0 && sel.kvs.any (fun kq => kq.1 == k0 && treeSelects kq.2.cmp kq.2.value kq.2.tr v)

/-- The same node: same key, same value. -/
def sameNode (a b : GoString × Key) : Bool := a.1 == b.1 && veq a.2 b.2

/-- Is the node locked by a creation? -/
def locked (s : St) (n : GoString × Key) : Bool :=
  s.prods.any (fun p => (List.range p.kvs.length).any (fun i => p.holds i && (p.kvs[i]?).any (fun x => sameNode x n)))

/-- Nodes that exist. -/
def nodes (s : St) : List (GoString × Key) :=
  s.prods.flatMap (fun p => p.kvs.take p.pc)

/-- The ids a visit of the node yields (threadsafe_query.go:168-198). -/
def idsAt (s : St) (sel : Selection Key) (n : GoString × Key) : List Nat :=
  (List.range s.prods.length).filter (fun j => (s.prods[j]?).any (fun p => p.listed && inBounds sel.min sel.max p.kvs.length && p.kvs.any (fun x => sameNode x n)))

/-- Three-valued logic: `none` = not known yet.  The code leaves out a search when its result can not matter any more
(threadsafe_query.go:101-104, 301-303): then the value is known without it. -/
def kand : Option Bool → Option Bool → Option Bool
  | some false, _ => some false
  | some true, b => b
  | none, some false => some false
  | none, _ => none
/-- or -/
def kor : Option Bool → Option Bool → Option Bool
  | some true, _ => some true
  | some false, b => b
  | none, some true => some true
  | none, _ => none
/-- all of them -/
def kall : List (Option Bool) → Option Bool
  | [] => some true
  | a :: as => kand a (kall as)

/-- Is the id in the set of a selection, given for each search whether it found the id (threadsafe_query.go:207-326). -/
def evalSel (S : Leaf → Option Bool) (sel : Selection Key) : Option Bool :=
  kand (if (selecting sel).isEmpty then S ([], none) else kall ((selecting sel).map (fun kq => S ([], some kq.1))))
    (if (excluding sel).isEmpty then some true else (kall ((excluding sel).map (fun kq => S ([], some kq.1)))).map not)

/-- The searches of a sub-query. -/
def below (S : Leaf → Option Bool) (b i : Nat) : Leaf → Option Bool := fun l => S (b :: i :: l.1, l.2)

/-- The selection of a query, if it has one. -/
def evalHead (S : Leaf → Option Bool) : Option (Selection Key) → Option Bool
  | none => some true
  | some sel => evalSel S sel

mutual
/-- Is the id in the result of the query (threadsafe_query.go:87-133). -/
def evalQ (S : Leaf → Option Bool) : Query Key → Option Bool
  | .mk sel or and _ =>
    kor (if sel.isSome || !and.isEmpty then kand (evalHead S sel) (evalAll (below S 0) and) else some false) (evalAny (below S 1) or)
/-- all of them -/
def evalAll (S : Nat → Leaf → Option Bool) : List (Query Key) → Option Bool
  | [] => some true
  | q :: qs => kand (evalQ (S 0) q) (evalAll (fun i => S (i + 1)) qs)
/-- one of them -/
def evalAny (S : Nat → Leaf → Option Bool) : List (Query Key) → Option Bool
  | [] => some false
  | q :: qs => kor (evalQ (S 0) q) (evalAny (fun i => S (i + 1)) qs)
end

/-- The result of a finished search for an id. -/
def Cons.found (c : Cons) (j : Nat) (l : Leaf) : Option Bool :=
  match c.scan l with
  | some sc => if sc.ended then some (sc.seen.contains j) else none
  | none => none

/-- What can happen. -/
inductive Label
  /-- an item for a channel that does not exist arrives -/
  | arriveItem (kvs : KVs Key)
  /-- the creation does its next step -/
  | create (p : Nat)
  /-- the channel is deleted -/
  | delete (p : Nat)
  /-- a client asks for an item -/
  | arriveClient (q : Query Key)
  /-- queue_channels_client_local.go:225, 343-348 `addClientWaiting` -/
  | register (c : Nat)
  /-- a search starts, visits a node, ends -/
  | start (c : Nat) (l : Leaf)
  | visit (c : Nat) (l : Leaf) (n : GoString × Key)
  | finish (c : Nat) (l : Leaf)
  /-- the lookup of an id of the result (threadsafe_query.go:59-62, the callback is queue_channels_client_local.go:230-240) -/
  | lookup (c : Nat) (p : Nat)
  /-- the iteration for the empty query starts, visits a channel -/
  | iterate (c : Nat)
  | pass (c : Nat) (p : Nat)
  /-- QueryAction returns -/
  | wait (c : Nat)

/-- Change a creation. -/
def St.setProd (s : St) (p : Nat) (f : Prod → Prod) : St := { s with prods := s.prods.modify p f }

/-- Channels in associatedIDs. -/
def inTree (s : St) : List Nat := (List.range s.prods.length).filter (fun j => (s.prods[j]?).any (·.inserted))

/-- queue_channels_client_local.go:365-376 `updateClientsWaiting`: the new channel `j` is offered to the clients in clientsWaiting whose
query matches. -/
def announce (s : St) (j : Nat) (kvs : KVs Key) : St :=
  { s with cons := s.cons.map (fun c => if c.registered && Query.matchTags kvs c.query then { c with offered := c.offered ++ [j] } else c) }

/-- The next step of creation `j`; `none` if it has to wait for a lock. -/
def createStep (s : St) (j : Nat) (p : Prod) : Option St :=
  let n := p.kvs.length
  let s' := s.setProd j (fun p => { p with pc := p.pc + 1 })
  if p.done then none
  else if decide (n ≤ p.pc) && decide (p.pc < 2 * n) then
    match p.kvs[p.pc - n]? with
    | some x => if locked s x then none else some s'
    | none => none
  else if p.pc = 2 * n then some (announce s' j p.kvs)
  else some s'

/-- Change a search of a client. -/
def Cons.setScan (k : Cons) (l : Leaf) (sc : Scan) : Cons := { k with scan := fun l' => if l' = l then some sc else k.scan l' }

/-- The client's search through the tree is over: every channel that is in the result was looked up; for the empty query, every channel
there was at the start of the iteration and that still exists was visited. -/
def Cons.over (s : St) (k : Cons) : Bool :=
  if isEmpty k.query then
    match k.iter with
    | some (old, vis) => old.all (fun j => vis.contains j || !(inTree s).contains j)
    | none => false
  else (List.range s.prods.length).all (fun j => match evalQ (k.found j) k.query with
    | some true => k.looked.contains j
    | some false => true
    | none => false)

/-- One step of a client; `none` if it can not happen now (functions cited at the labels). -/
def consStep (s : St) (k : Cons) : Label → Option Cons
  | .register _ => some { k with registered := true }
  | .start _ l => if k.registered && (k.scan l).isNone && !isEmpty k.query then some (k.setScan l ⟨nodes s, [], [], false⟩) else none
  | .visit _ l n => match k.scan l, selAt l.1 k.query with
    | some sc, some sel =>
      if !sc.ended && covers sel l.2 n.1 n.2 && !locked s n then
        some (k.setScan l { sc with visited := sc.visited ++ [n], seen := sc.seen ++ idsAt s sel n })
      else none
    | _, _ => none
  | .finish _ l => match k.scan l, selAt l.1 k.query with
    | some sc, some sel =>
      if sc.existing.all (fun n => !covers sel l.2 n.1 n.2 || sc.visited.any (fun m => sameNode n m)) then some (k.setScan l { sc with ended := true })
      else none
    | _, _ => none
  | .lookup _ j =>
    if k.registered && (evalQ (k.found j) k.query == some true) && !isEmpty k.query then
      some { k with looked := k.looked ++ [j], offered := if (inTree s).contains j then k.offered ++ [j] else k.offered }
    else none
  | .iterate _ => if k.registered && isEmpty k.query && k.iter.isNone then some { k with iter := some (inTree s, []) } else none
  | .pass _ j => match k.iter with
    | some (old, vis) => if (inTree s).contains j then some { k with iter := some (old, vis ++ [j]), offered := k.offered ++ [j] } else none
    | none => none
  | .wait _ => if k.registered && k.over s then some { k with waiting := true } else none
  | _ => none

/-- The client a step belongs to. -/
def Label.client : Label → Option Nat
  | .register c | .start c _ | .visit c _ _ | .finish c _ | .lookup c _ | .iterate c | .pass c _ | .wait c => some c
  | _ => none

/-- One event; `none` if it can not happen now (functions cited above). -/
def step (s : St) (l : Label) : Option St :=
  match l with
  | .arriveItem kvs => some { s with prods := s.prods ++ [⟨kvs, 0, false⟩] }
  | .create j => match s.prods[j]? with
    | some p => createStep s j p
    | none => none
  | .delete j => match s.prods[j]? with
    | some p => if p.done then some (s.setProd j (fun p => { p with gone := true })) else none
    | none => none
  | .arriveClient q => some { s with cons := s.cons ++ [⟨q, false, fun _ => none, [], none, [], false⟩] }
  | l => match l.client with
    | some c => match s.cons[c]? with
      | some k => (consStep s k l).map (fun k' => { s with cons := s.cons.set c k' })
      | none => none
    | none => none

/-- A history. -/
def run (s : St) : List Label → Option St
  | [] => some s
  | l :: ls => match step s l with
    | none => none
    | some s' => run s' ls

end Willow.Waiting
