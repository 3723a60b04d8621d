import Verif.Model.AssocConc
/-!
Words for C86 and C87: a map from key-values to items on which every call acts at one moment between its call and its return.  Only calls, results and
events are shared with the model.
-/
namespace Willow.AssocConc

variable {V A : Type}

/-- What is stored under some key-values. -/
structure Entry (A : Type) where
  id : Nat
  val : A

/-- A call: what it asks for, whether at some moment since it was made there was nothing for it to find, whether it has announced a destruction, what it
achieved when it acted, whether it has returned. -/
structure Pend (V A : Type) where
  call : Call V A
  missed : Bool
  marked : Bool
  res : Option (Res A)
  returned : Bool

/-- The map, the ids ever given to items, the ids announced to be destroyed, and the calls. -/
structure AMap (V A : Type) where
  stored : KVs V → Option (Entry A)
  used : List Nat
  closing : List Nat
  calls : List (Pend V A)

/-- The empty map. -/
def AMap.init : AMap V A := ⟨fun _ => none, [], [], []⟩

/-- The item under some key-values, unless its destruction is announced. -/
def AMap.live (m : AMap V A) (kvs : KVs V) : Option (Entry A) :=
  match m.stored kvs with
  | some e => if e.id ∈ m.closing then none else some e
  | none => none

/-- There is nothing for this call to find at this moment. -/
def AMap.misses (m : AMap V A) : Call V A → Bool
  | .find kvs => (m.live kvs).isNone
  | .delete kvs _ => (m.stored kvs).isNone
  | _ => false

/-- Calls under way notice when there is nothing for them to find. -/
def AMap.see (m : AMap V A) : AMap V A := { m with calls := m.calls.map fun p => { p with missed := p.missed || m.misses p.call } }

/-- Store something under some key-values. -/
def AMap.put [DecidableEq V] (m : AMap V A) (kvs : KVs V) (e : Option (Entry A)) : AMap V A := { m with stored := fun k => if k = kvs then e else m.stored k }

/-- What a call does when it acts, and what it achieves. -/
inductive AMap.Act [DecidableEq V] (m : AMap V A) : Call V A → Bool → AMap V A → Res A → Prop where
  | created {kvs : KVs V} {a : A} {id : Nat} (h : m.stored kvs = none) (hid : id ∉ m.used) : Act m (.create kvs a) false { m.put kvs (some ⟨id, a⟩) with used := id :: m.used } (.created id)
  | exists {kvs : KVs V} {a : A} {e : Entry A} (h : m.stored kvs = some e) : Act m (.create kvs a) false m .exists
  | created' {kvs : KVs V} {a : A} {id : Nat} (h : m.stored kvs = none) (hid : id ∉ m.used) : Act m (.createOrFind kvs a) false { m.put kvs (some ⟨id, a⟩) with used := id :: m.used } (.created id)
  | found' {kvs : KVs V} {a : A} {e : Entry A} (h : m.live kvs = some e) : Act m (.createOrFind kvs a) false m (.found e.id e.val)
  | closing' {kvs : KVs V} {a : A} {e : Entry A} (h : m.stored kvs = some e) (hc : e.id ∈ m.closing) : Act m (.createOrFind kvs a) false m .destroying
  | found {kvs : KVs V} {e : Entry A} (h : m.live kvs = some e) : Act m (.find kvs) false m (.found e.id e.val)
  | removed {kvs : KVs V} {can : A → Bool} {e : Entry A} (h : m.live kvs = some e) (hc : can e.val = true) : Act m (.delete kvs can) false (m.put kvs none) (.removed e.id)
  | refused {kvs : KVs V} {can : A → Bool} {e : Entry A} (h : m.live kvs = some e) (hc : can e.val = false) : Act m (.delete kvs can) false m .refused
  | closing {kvs : KVs V} {can : A → Bool} {e : Entry A} (h : m.stored kvs = some e) (hc : e.id ∈ m.closing) : Act m (.delete kvs can) false m .destroying
  /-- a destruction of the same id is under way -/
  | taken {id : Nat} {can : A → Bool} (h : id ∈ m.closing) : Act m (.destroy id can) false m .destroying
  /-- an announced destruction -/
  | destroyed {id : Nat} {can : A → Bool} {kvs : KVs V} {a : A} (h : m.stored kvs = some ⟨id, a⟩) (hc : can a = true) : Act m (.destroy id can) true (m.put kvs none) (.removed id)
  | kept {id : Nat} {can : A → Bool} {kvs : KVs V} {a : A} (h : m.stored kvs = some ⟨id, a⟩) (hc : can a = false) : Act m (.destroy id can) true m .refused
  | unknown {id : Nat} {can : A → Bool} (h : ∀ kvs a, m.stored kvs ≠ some ⟨id, a⟩) : Act m (.destroy id can) true m .nothing

/-- The steps of the map. -/
inductive AMap.Step [DecidableEq V] : AMap V A → Option (Event V A) → AMap V A → Prop where
  | call {m : AMap V A} (c : Call V A) : Step m (some (.call c)) { m with calls := m.calls ++ [⟨c, m.misses c, false, none, false⟩] }
  /-- a call acts, at one moment -/
  | act {m m' : AMap V A} {r : Res A} (t : Nat) (p : Pend V A) (h : m.calls[t]? = some p) (hr : p.res = none) (ha : AMap.Act m p.call p.marked m' r) :
      Step m none { m' with calls := m.calls.set t { p with res := some r } }.see
  /-- a call announces a destruction -/
  | mark {m : AMap V A} (t : Nat) (p : Pend V A) (id : Nat) (can : A → Bool) (h : m.calls[t]? = some p) (hc : p.call = .destroy id can) (hr : p.res = none) (hm : p.marked = false)
      (hid : id ∉ m.closing) : Step m none { m with closing := m.closing ++ [id], calls := m.calls.set t { p with marked := true } }.see
  /-- the destruction is over -/
  | unmark {m : AMap V A} (t : Nat) (p : Pend V A) (id : Nat) (can : A → Bool) (h : m.calls[t]? = some p) (hc : p.call = .destroy id can) (hr : p.res ≠ none) (hm : p.marked = true) :
      Step m none { m with closing := m.closing.erase id, calls := m.calls.set t { p with marked := false } }.see
  /-- a call returns what it achieved; a find or delete can return that it found nothing if at some moment there was nothing to be found -/
  | ret {m : AMap V A} (t : Nat) (p : Pend V A) (r : Res A) (h : m.calls[t]? = some p) (hr : p.returned = false) (hm : p.marked = false)
      (hres : p.res = some r ∨ (p.res = none ∧ p.missed = true ∧ r = .nothing)) : Step m (some (.ret t r)) { m with calls := m.calls.set t { p with returned := true } }

/-- Histories of the map: what callers see of calls that act at one moment. -/
inductive AMap.Run [DecidableEq V] : AMap V A → List (Event V A) → AMap V A → Prop where
  | nil {m : AMap V A} : Run m [] m
  | step {m m' m'' : AMap V A} {evs : List (Event V A)} {e : Option (Event V A)} (h : Run m evs m') (h' : AMap.Step m' e m'') : Run m (evs ++ e.toList) m''

/-- The call is not a CreateOrFind whose onCreate returns nil. -/
def Call.creates : Call V A → Bool
  | .createFails _ => false
  | _ => true

/-- The call removes something. -/
def Call.removes : Call V A → Bool
  | .delete _ _ | .destroy _ _ => true
  | _ => false

/-- The calls of a history, in the order in which they were made. -/
def callsOf : List (Event V A) → List (Call V A)
  | [] => []
  | .call c :: evs => c :: callsOf evs
  | .ret _ _ :: evs => callsOf evs

/-- What calls returned. -/
def rets : List (Event V A) → List (Nat × Res A)
  | [] => []
  | .call _ :: evs => rets evs
  | .ret t r :: evs => (t, r) :: rets evs

/-- Nothing but new calls can happen. -/
def Stuck [DecidableEq V] (blocks : (Nat → Option (Item V A)) → Nat → Nat → Bool) (s : St V A) : Prop := ∀ e s', Step blocks s e s' → ∃ c, e = some (.call c)

/-- Going on for ever without new calls. -/
def Forever [DecidableEq V] (blocks : (Nat → Option (Item V A)) → Nat → Nat → Bool) (f : Nat → St V A) : Prop :=
  ∀ i, ∃ e, Step blocks (f i) e (f (i + 1)) ∧ ∀ c, e ≠ some (.call c)

/-- The call is DestroyByAssociatedID. -/
def Call.destroys : Call V A → Bool
  | .destroy _ _ => true
  | _ => false

/-- The call is Delete. -/
def Call.deletes : Call V A → Bool
  | .delete _ _ => true
  | _ => false

/-- The result of a call that found or changed something. -/
def Res.good : Res A → Bool
  | .created _ | .found _ _ | .removed _ | .refused => true
  | _ => false

/-- One of the calls asks for an item with these key-values and this value. -/
def Asked (cs : List (Call V A)) (kvs : KVs V) (a : A) : Prop := .create kvs a ∈ cs ∨ .createOrFind kvs a ∈ cs

/-- The result tells of an item, or that there is none, or that it is being destroyed. -/
def Res.plain : Res A → Bool
  | .neither _ | .failed => false
  | _ => true

end Willow.AssocConc
