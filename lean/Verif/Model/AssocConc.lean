import Verif.Model.DataTypes
/-
The associated tree used by any number of goroutines at the same time: internal/datastructures/btree_associated
(threadsafe_create.go, threadsafe_query.go for exact queries, threadsafe_delete.go, threadsafe_destroy.go).

* One step each: one operation on one of the ordered trees (C80: each of them behaves as if it happened at one moment), together with the callback that runs
  inside it; locking or unlocking one ID node.  An operation whose callback needs the lock of an ID node waits until that is free.
* The tree of trees `keys` is one index from key-value pairs to ID nodes (a values tree that is empty is removed with its key; threadsafe_delete.go:174).
* The values of pairs are compared as in the ordered tree; `V` stands for them.  The values of a map of key-values are a list sorted by key (SortedKeys).
* ID nodes that were removed from the index can still be in the hands of calls: they are objects with a number.
* Sets of ids are lists; no id occurs twice in them.  Removing an id from a slice by swapping it with the last one is leaving it out.
* While the callback of DestroyByAssociatedID runs, locks of the tree of ids are held.  Which other operations on that tree they keep waiting depends on the
  shape of the tree; it is a parameter (`blocks`).
* That the flag of a key being destroyed is looked at before the operation on the tree of ids and not at the same moment is left out: the item is there from the
  look to the operation, or the operation finds nothing.
* DestroyTree and DeleteByAssociatedID are not part of it; the callbacks onFind and canDelete do not use the tree.
-/
namespace Willow.AssocConc

variable {V A : Type}

/-- A map of key-values, sorted by key. -/
abbrev KVs (V : Type) := List (GoString × V)

/-- The calls: threadsafe_create.go:74, 206; QueryAction with KeyValuesToExactAssociatedActionQuery (threadsafe_query.go:27); threadsafe_delete.go:26;
threadsafe_destroy.go:15.  `createFails` is CreateOrFind with an onCreate that returns nil. -/
inductive Call (V A : Type) where
  | create (kvs : KVs V) (a : A)
  | createOrFind (kvs : KVs V) (a : A)
  | createFails (kvs : KVs V)
  | find (kvs : KVs V)
  | delete (kvs : KVs V) (can : A → Bool)
  | destroy (id : Nat) (can : A → Bool)

/-- The key-values a call names. -/
def Call.kvs : Call V A → KVs V
  | .create kvs _ | .createOrFind kvs _ | .createFails kvs | .find kvs | .delete kvs _ => kvs
  | .destroy _ _ => []

/-- What a call tells its caller, by its return values and its callbacks. -/
inductive Res (A : Type) where
  /-- the item was created -/
  | created (id : Nat)
  /-- ErrorKeyValuesAlreadyExists -/
  | exists
  /-- onFind was called -/
  | found (id : Nat) (a : A)
  /-- ErrorTreeItemDestroying -/
  | destroying
  /-- nothing was found: no callback was called -/
  | nothing
  /-- canDelete was called and allowed it -/
  | removed (id : Nat)
  /-- canDelete was called and refused -/
  | refused
  /-- CreateOrFind returned an id without calling onFind, and without having created an item -/
  | neither (id : Nat)
  /-- onCreate returned nil -/
  | failed
  deriving DecidableEq

/-- Where a call is. -/
inductive Phase (V A : Type) where
  /-- threadsafe_query.go:207-225: the pairs still to be looked up, the ids found so far -/
  | query (todo : KVs V) (acc : Option (List Nat))
  /-- threadsafe_query.go:58-78: the ids still to be looked up -/
  | lookup (ids : List Nat)
  /-- threadsafe_create.go:93-97, 236-238: the pairs whose ID nodes are still to be found or created, the nodes -/
  | touch (todo : KVs V) (nodes : List Nat)
  /-- threadsafe_create.go:100-124, 241-265: the nodes still to be locked, the locked ones, the common ids -/
  | lock (todo held : List Nat) (got : Option (List Nat))
  /-- threadsafe_create.go:142-160, 300-318: the id is in the nodes, the item not yet in the tree of ids -/
  | make (held : List Nat) (id : Nat)
  /-- threadsafe_create.go:162-166 and the other loops that unlock -/
  | unlock (todo : List Nat) (r : Res A)
  /-- threadsafe_delete.go:67-71 -/
  | dfind (todo : KVs V) (nodes : List Nat)
  /-- threadsafe_delete.go:75-98 -/
  | dlock (todo held : List Nat) (got : Option (List Nat))
  /-- threadsafe_delete.go:84-91 (`stop`) and 148-150 -/
  | dunlock (todo : List Nat) (stop : Bool) (r : Res A)
  /-- threadsafe_delete.go:180-184 -/
  | clean (todo : KVs V) (r : Res A)
  /-- btree/threadsafe_destroy.go:33-42: about to record that the key is being destroyed -/
  | mark
  /-- btree/threadsafe_destroy.go:57 -/
  | seize
  /-- threadsafe_destroy.go:136-140: the pairs still to be cleaned, in any order -/
  | wipe (todo : KVs V)
  /-- the call is over; `kept`: locks it left locked (threadsafe_delete.go:117-119) -/
  | done (r : Res A) (kept : List Nat)

/-- A call under way, or over (`returned`). -/
structure Thread (V A : Type) where
  call : Call V A
  phase : Phase V A
  returned : Bool := false

/-- threadsafe_associated.go:31-42 `threadsafeIDNode`: `ids[n]` are the ids of items with n+1 key-values. -/
structure Node (V : Type) where
  pair : GoString × V
  ids : List (List Nat)
  creating : Nat
  owner : Option Nat

/-- threadsafe_associated_values.go:17-27 -/
structure Item (V A : Type) where
  kvs : KVs V
  val : A

/-- threadsafe_associated.go:12-28: the tree and the calls on it. -/
structure St (V A : Type) where
  /-- the ID nodes, by number; those from `next` on do not exist -/
  node : Nat → Node V
  next : Nat
  /-- `keys` -/
  index : GoString × V → Option Nat
  /-- `associatedIDs` -/
  item : Nat → Option (Item V A)
  /-- the ids that were generated -/
  used : List Nat
  /-- btree/threadsafe_b_tree.go:23: the keys of `associatedIDs` being destroyed -/
  destroying : List Nat
  threads : List (Thread V A)

/-- threadsafe_associated.go:47-64 -/
def St.init [Inhabited V] : St V A := ⟨fun _ => ⟨default, [], 0, none⟩, 0, fun _ => none, fun _ => none, [], [], []⟩

/-- `ids[n-1]`, empty if there is no such entry. -/
def Node.at (d : Node V) (n : Nat) : List Nat := (d.ids[n - 1]?).getD []

/-- threadsafe_create.go:103-108: at least `n` entries. -/
def extend (n : Nat) (ids : List (List Nat)) : List (List Nat) := ids ++ List.replicate (n - ids.length) []

/-- threadsafe_create.go:142-144 -/
def addId (n id : Nat) (ids : List (List Nat)) : List (List Nat) := ids.modify (n - 1) (· ++ [id])

/-- threadsafe_delete.go:134-142, threadsafe_destroy.go:107-115: drop empty entries at the end. -/
def trunc (ids : List (List Nat)) : List (List Nat) := (ids.reverse.dropWhile List.isEmpty).reverse

/-- threadsafe_delete.go:123-143, threadsafe_destroy.go:97-115 -/
def dropId (n id : Nat) (ids : List (List Nat)) : List (List Nat) := trunc (ids.modify (n - 1) (·.filter (· != id)))

/-- set.Intersection; `none`: no set yet. -/
def inter (got : Option (List Nat)) (l : List Nat) : List Nat :=
  match got with
  | none => l
  | some g => g.filter (l.contains ·)

/-- Change one ID node. -/
def St.setNode (s : St V A) (i : Nat) (f : Node V → Node V) : St V A := { s with node := fun j => if j = i then f (s.node j) else s.node j }

/-- Change some ID nodes. -/
def St.setNodes (s : St V A) (is : List Nat) (f : Node V → Node V) : St V A := { s with node := fun j => if j ∈ is then f (s.node j) else s.node j }

/-- Call `t` goes on. -/
def St.to (s : St V A) (t : Nat) (th : Thread V A) (p : Phase V A) : St V A := { s with threads := s.threads.set t { th with phase := p } }

/-- An operation on `wanted` in the tree of ids waits for a DestroyByAssociatedID whose callback is running. -/
def St.busy (blocks : (Nat → Option (Item V A)) → Nat → Nat → Bool) (s : St V A) (wanted : Nat) : Bool :=
  s.threads.any fun th => match th.call, th.phase with
    | .destroy id _, .wipe _ => blocks s.item id wanted
    | _, _ => false

/-- threadsafe_query.go:47-80, threadsafe_create.go:219-231: nothing was found. -/
def afterQuery (c : Call V A) : Phase V A :=
  match c with
  | .createOrFind kvs _ | .createFails kvs => .touch kvs []
  | _ => .done .nothing []

/-- threadsafe_query.go:207-225 and 267: one pair of the query. -/
def nextQuery [DecidableEq V] (s : St V A) (t : Nat) (th : Thread V A) (acc : Option (List Nat)) (p : GoString × V) (rest : KVs V) : Option (St V A) :=
  match s.index p with
  | none => some (s.to t th (afterQuery th.call))
  | some i =>
    if (s.node i).owner ≠ none then none
    else if inter acc ((s.node i).at th.call.kvs.length) = [] then some (s.to t th (afterQuery th.call))
    else some (s.to t th (.query rest (some (inter acc ((s.node i).at th.call.kvs.length)))))

/-- threadsafe_query.go:58-78: one id. -/
def nextLookup (blocks : (Nat → Option (Item V A)) → Nat → Nat → Bool) (s : St V A) (t : Nat) (th : Thread V A) (id : Nat) (rest : List Nat) : Option (St V A) :=
  if id ∈ s.destroying then some (s.to t th (.lookup rest))
  else if s.busy blocks id then none
  else match s.item id with
    | some it => some (s.to t th (.done (.found id it.val) []))
    | none => some (s.to t th (.lookup rest))

/-- threadsafe_create.go:15-54: find or create the ID node of a pair. -/
def nextTouch [DecidableEq V] (s : St V A) (t : Nat) (th : Thread V A) (p : GoString × V) (rest : KVs V) (nodes : List Nat) : Option (St V A) :=
  match s.index p with
  | none => some ({ s with node := fun j => if j = s.next then ⟨p, [], 1, none⟩ else s.node j, next := s.next + 1,
                           index := fun q => if q = p then some s.next else s.index q }.to t th (.touch rest (nodes ++ [s.next])))
  | some i =>
    if (s.node i).owner ≠ none then none
    else some ((s.setNode i fun d => { d with creating := d.creating + 1 }).to t th (.touch rest (nodes ++ [i])))

/-- threadsafe_create.go:101-124: lock one node. -/
def nextLock (s : St V A) (t : Nat) (th : Thread V A) (i : Nat) (rest held : List Nat) (got : Option (List Nat)) : Option (St V A) :=
  if (s.node i).owner ≠ none then none
  else
    let n := th.call.kvs.length
    let got' := if (s.node i).ids.length < n then [] else inter got ((s.node i).at n)
    some ((s.setNode i fun d => { d with owner := some t, ids := extend n d.ids }).to t th (.lock rest (held ++ [i]) (some got')))

/-- A new UUID: nobody has used or named it. -/
def St.fresh (s : St V A) (id : Nat) : Bool :=
  decide (id ∉ s.used) && s.threads.all fun th => match th.call with | .destroy j _ => decide (j ≠ id) | _ => true

/-- threadsafe_create.go:126-144, 267-303: all nodes are locked; `pick` is the new id if one is needed. -/
def nextLocked (blocks : (Nat → Option (Item V A)) → Nat → Nat → Bool) (s : St V A) (t : Nat) (th : Thread V A) (held : List Nat) (got : Option (List Nat)) (pick : Nat) :
    Option (St V A) :=
  match got with
  | some [id] =>
    match th.call with
    | .create _ _ => some (s.to t th (.unlock held .exists))
    | _ =>
      if id ∈ s.destroying then some (s.to t th (.unlock held .destroying))
      else if s.busy blocks id then none
      else match s.item id with
        | some it => some (s.to t th (.unlock held (.found id it.val)))
        | none => some (s.to t th (.unlock held (.neither id)))
  | _ =>
    if s.fresh pick then
      some (({ s with used := pick :: s.used }.setNodes held fun d => { d with ids := addId th.call.kvs.length pick d.ids }).to t th (.make held pick))
    else none

/-- threadsafe_create.go:146-180, 305-341: onCreate returned; store the item. -/
def nextMake (blocks : (Nat → Option (Item V A)) → Nat → Nat → Bool) (s : St V A) (t : Nat) (th : Thread V A) (held : List Nat) (id : Nat) : Option (St V A) :=
  match th.call with
  | .create kvs a | .createOrFind kvs a =>
    if s.busy blocks id then none
    else some ({ s with item := fun j => if j = id then some ⟨kvs, a⟩ else s.item j }.to t th (.unlock held (.created id)))
  | _ => some (s.to t th (.unlock held .failed))

/-- threadsafe_create.go:162-166: unlock one node. -/
def nextUnlock (s : St V A) (t : Nat) (th : Thread V A) (i : Nat) (rest : List Nat) (r : Res A) : St V A :=
  (s.setNode i fun d => { d with owner := none, creating := d.creating - 1 }).to t th (.unlock rest r)

/-- threadsafe_create.go:343-344: after a failed create everything is deleted again. -/
def afterUnlock (c : Call V A) (r : Res A) : Phase V A :=
  match r with
  | .failed => .dfind c.kvs []
  | r => .done r []

/-- threadsafe_delete.go:48-71: find the ID node of one pair. -/
def nextDfind [DecidableEq V] (s : St V A) (t : Nat) (th : Thread V A) (p : GoString × V) (rest : KVs V) (nodes : List Nat) : St V A :=
  match s.index p with
  | none => s.to t th (.dfind rest nodes)
  | some i => s.to t th (.dfind rest (nodes ++ [i]))

/-- threadsafe_delete.go:74 -/
def afterDfind (c : Call V A) (nodes : List Nat) : Phase V A :=
  if nodes.length = c.kvs.length then .dlock nodes [] none else .clean c.kvs .nothing

/-- threadsafe_delete.go:75-98: lock one node. -/
def nextDlock (s : St V A) (t : Nat) (th : Thread V A) (i : Nat) (rest held : List Nat) (got : Option (List Nat)) : Option (St V A) :=
  if (s.node i).owner ≠ none then none
  else if (s.node i).ids.length < th.call.kvs.length then
    some ((s.setNode i fun d => { d with owner := some t }).to t th (.dunlock (held ++ [i]) true .nothing))
  else
    some ((s.setNode i fun d => { d with owner := some t }).to t th (.dlock rest (held ++ [i]) (some (inter got ((s.node i).at th.call.kvs.length)))))

/-- The optional canDelete callback (threadsafe_delete.go:106-108). -/
def Call.can : Call V A → A → Bool
  | .delete _ can, a => can a
  | .destroy _ can, a => can a
  | _, _ => true

/-- threadsafe_delete.go:100-145: all nodes are locked. -/
def nextDlocked (blocks : (Nat → Option (Item V A)) → Nat → Nat → Bool) (s : St V A) (t : Nat) (th : Thread V A) (held : List Nat) (got : Option (List Nat)) : Option (St V A) :=
  match got with
  | some [id] =>
    if id ∈ s.destroying then some (s.to t th (.done .destroying held))
    else if s.busy blocks id then none
    else match s.item id with
      | some it =>
        if th.call.can it.val then
          some (({ s with item := fun j => if j = id then none else s.item j }.setNodes held fun d => { d with ids := dropId th.call.kvs.length id d.ids }).to t th
            (.dunlock held false (.removed id)))
        else some (s.to t th (.dunlock held false .refused))
      | none => some ((s.setNodes held fun d => { d with ids := dropId th.call.kvs.length id d.ids }).to t th (.dunlock held false .nothing))
  | _ => some (s.to t th (.dunlock held false .nothing))

/-- threadsafe_delete.go:148-150: unlock one node. -/
def nextDunlock (s : St V A) (t : Nat) (th : Thread V A) (i : Nat) (rest : List Nat) (stop : Bool) (r : Res A) : St V A :=
  (s.setNode i fun d => { d with owner := none }).to t th (.dunlock rest stop r)

/-- What a call returns after the deletion. -/
def finish (c : Call V A) (r : Res A) : Phase V A :=
  match c with
  | .createFails _ => .done .failed []
  | _ => .done r []

/-- threadsafe_delete.go:90, 152-186 -/
def afterDunlock (c : Call V A) (stop : Bool) (r : Res A) : Phase V A := if stop then finish c r else .clean c.kvs r

/-- threadsafe_delete.go:154-184: remove the ID node of one pair if it is empty. -/
def nextClean [DecidableEq V] (s : St V A) (t : Nat) (th : Thread V A) (p : GoString × V) (rest : KVs V) (r : Res A) : Option (St V A) :=
  match s.index p with
  | none => some (s.to t th (.clean rest r))
  | some i =>
    if (s.node i).owner ≠ none then none
    else if (s.node i).ids = [] ∧ (s.node i).creating = 0 then
      some ({ s with index := fun q => if q = p then none else s.index q }.to t th (.clean rest r))
    else some (s.to t th (.clean rest r))

/-- btree/threadsafe_destroy.go:33-42 -/
def nextMark (s : St V A) (t : Nat) (th : Thread V A) (id : Nat) : St V A :=
  if id ∈ s.destroying then s.to t th (.done .destroying [])
  else { s with destroying := s.destroying ++ [id] }.to t th .seize

/-- threadsafe_destroy.go:27-33, btree/threadsafe_destroy.go:45-57: find the item and ask canDelete. -/
def nextSeize (blocks : (Nat → Option (Item V A)) → Nat → Nat → Bool) (s : St V A) (t : Nat) (th : Thread V A) (id : Nat) : Option (St V A) :=
  if s.busy blocks id then none
  else match s.item id with
    | none => some ({ s with destroying := s.destroying.erase id }.to t th (.done .nothing []))
    | some it =>
      if th.call.can it.val then some (s.to t th (.wipe it.kvs))
      else some ({ s with destroying := s.destroying.erase id }.to t th (.done .refused []))

/-- threadsafe_destroy.go:95-142: remove the id from the ID node of one pair; `n`: the number of key-values of the item. -/
def nextWipe [DecidableEq V] (s : St V A) (t : Nat) (th : Thread V A) (id n : Nat) (p : GoString × V) (rest : KVs V) : Option (St V A) :=
  match s.index p with
  | none => some (s.to t th (.wipe rest))
  | some i =>
    if (s.node i).owner ≠ none then none
    else
      let s' := s.setNode i fun d => { d with ids := dropId n id d.ids }
      if dropId n id (s.node i).ids = [] ∧ (s.node i).creating = 0 then
        some ({ s' with index := fun q => if q = p then none else s.index q }.to t th (.wipe rest))
      else some (s'.to t th (.wipe rest))

/-- threadsafe_destroy.go:38-41, btree/threadsafe_destroy.go:45-54: the item is removed, the key no longer being destroyed. -/
def nextWiped (s : St V A) (t : Nat) (th : Thread V A) (id : Nat) : St V A :=
  { s with item := fun j => if j = id then none else s.item j, destroying := s.destroying.erase id }.to t th (.done (.removed id) [])

/-- One step of call `t`; `none`: it waits, or it is over.  `pick`: the new id, or which of the pairs is next. -/
def next [DecidableEq V] (blocks : (Nat → Option (Item V A)) → Nat → Nat → Bool) (s : St V A) (t pick : Nat) (th : Thread V A) : Option (St V A) :=
  match th.phase with
  | .query [] acc => some (s.to t th (.lookup (acc.getD [])))
  | .query (p :: rest) acc => nextQuery s t th acc p rest
  | .lookup [] => some (s.to t th (afterQuery th.call))
  | .lookup (id :: rest) => nextLookup blocks s t th id rest
  | .touch [] nodes => some (s.to t th (.lock nodes [] none))
  | .touch (p :: rest) nodes => nextTouch s t th p rest nodes
  | .lock [] held got => nextLocked blocks s t th held got pick
  | .lock (i :: rest) held got => nextLock s t th i rest held got
  | .make held id => nextMake blocks s t th held id
  | .unlock [] r => some (s.to t th (afterUnlock th.call r))
  | .unlock (i :: rest) r => some (nextUnlock s t th i rest r)
  | .dfind [] nodes => some (s.to t th (afterDfind th.call nodes))
  | .dfind (p :: rest) nodes => some (nextDfind s t th p rest nodes)
  | .dlock [] held got => nextDlocked blocks s t th held got
  | .dlock (i :: rest) held got => nextDlock s t th i rest held got
  | .dunlock [] stop r => some (s.to t th (afterDunlock th.call stop r))
  | .dunlock (i :: rest) stop r => some (nextDunlock s t th i rest stop r)
  | .clean [] r => some (s.to t th (finish th.call r))
  | .clean (p :: rest) r => nextClean s t th p rest r
  | .mark => match th.call with
    | .destroy id _ => some (nextMark s t th id)
    | _ => none
  | .seize => match th.call with
    | .destroy id _ => nextSeize blocks s t th id
    | _ => none
  | .wipe [] => match th.call with
    | .destroy id _ => some (nextWiped s t th id)
    | _ => none
  | .wipe (p :: rest) => match th.call, (p :: rest)[pick]? with
    | .destroy id _, some q => match s.item id with
      | some it => nextWipe s t th id it.kvs.length q ((p :: rest).eraseIdx pick)
      | none => none
    | _, _ => none
  | .done _ _ => none

/-- Where a call begins. -/
def start (c : Call V A) : Phase V A :=
  match c with
  | .create kvs _ => .touch kvs []
  | .createOrFind kvs _ | .createFails kvs | .find kvs => .query kvs none
  | .delete kvs _ => .dfind kvs []
  | .destroy _ _ => .mark

/-- What callers see: calls, numbered in the order in which they are made, and what they return. -/
inductive Event (V A : Type) where
  | call (c : Call V A)
  | ret (t : Nat) (r : Res A)

/-- Keys of a map, sorted; KeyValues.Validate wants at least one. -/
def Sorted (kvs : KVs V) : Prop := kvs.Pairwise (fun a b => strLt a.1 b.1 = true)

/-- Key-values a call can have. -/
def Call.ok : Call V A → Prop
  | .destroy _ _ => True
  | c => c.kvs ≠ [] ∧ Sorted c.kvs

/-- All interleavings. -/
inductive Step [DecidableEq V] (blocks : (Nat → Option (Item V A)) → Nat → Nat → Bool) : St V A → Option (Event V A) → St V A → Prop where
  /-- a call is made -/
  | call {s : St V A} (c : Call V A) (h : c.ok) : Step blocks s (some (.call c)) { s with threads := s.threads ++ [⟨c, start c, false⟩] }
  /-- a call goes on -/
  | go {s s' : St V A} (t pick : Nat) (th : Thread V A) (h : s.threads[t]? = some th) (h' : next blocks s t pick th = some s') : Step blocks s none s'
  /-- a call returns -/
  | ret {s : St V A} (t : Nat) (th : Thread V A) (r : Res A) (kept : List Nat) (h : s.threads[t]? = some th) (hr : th.returned = false) (hp : th.phase = .done r kept) :
      Step blocks s (some (.ret t r)) { s with threads := s.threads.set t { th with returned := true } }

/-- A run: the events seen so far, and where everything is now. -/
inductive Run [DecidableEq V] (blocks : (Nat → Option (Item V A)) → Nat → Nat → Bool) : St V A → List (Event V A) → St V A → Prop where
  | nil {s : St V A} : Run blocks s [] s
  | step {s s' s'' : St V A} {evs : List (Event V A)} {e : Option (Event V A)} (h : Run blocks s evs s') (h' : Step blocks s' e s'') : Run blocks s (evs ++ e.toList) s''

end Willow.AssocConc
