import Verif.Model.OneToMany
/-
Model of internal/limiter (rules, overrides, counters), one request at a time, on top of the models of the associated tree and of
the one-to-many tree.

* `none` = the service panics.
* The locks an increment takes from the locker service are left out here (nobody else runs); Model/LimiterLocks.lean is the
  concurrent part.  That the locker refuses or loses a lock (answer 500) is not modelled.
* The destroying flags ("409 ... is being destroyed") only matter to concurrent requests and are left out.
* Go iterates over maps and sets in random order: each request carries the order (`Choice`), see there.
-/
namespace Willow.Limiter
open Willow.Assoc Willow.OTM

variable {K : Type}

/-- int64 addition wraps around. -/
def add64 (a b : Int) : Int := (a + b).bmod (2 ^ 64)

/-- The value of one stored item is changed in place by a callback (`item.Value().(Rule).Update(...)` and the like: the tree keeps a
pointer to the value). -/
def modify {V : Type} (t : ATree K V) (id : Nat) (f : V → V) : ATree K V :=
  { t with items := t.items.map (fun i => if i.id == id then { i with value := f i.value } else i) }

/-- A rule's id as the relation id of its overrides.  The id is a UUID string in Go; only that it is not empty and that different
ids are different strings matters. -/
def idStr (id : Nat) : GoString := List.replicate (id + 1) 120

/-- associated_action_query.go:67-73 `StringToAssociatedActionQuery`. -/
def idQuery (id : Nat) : Query K := .mk (some { ids := [id] }) [] [] true

/-- rules_client_local.go:22-29 (`rules`), overrides_client_local.go:24-30 (`overrides`), counter_client_local.go:25-34 (`counters`).
A rule is its limit (rules/memory/rule.go:10-13), an override its limit (overrides/memory/memory_override.go:11-14), a counter its
int64 (counters/memory/counter.go:10-13). -/
structure State (K : Type) where
  rules : ATree K Int
  overrides : OTM.Tree K Int
  counters : ATree K Int

/-- A service that has just started (rules_client_local.go:36-42, overrides_client_local.go:32-37, counter_client_local.go:36-42). -/
def State.init : State K := ⟨ATree.new, [], ATree.new⟩

/-- The random orders of one request: in which order the keys found by a match are combined (threadsafe_match.go:100-102) and in
which order the items a match or query found are visited. -/
structure Choice (K : Type) where
  shuffle : List GoString → List GoString := fun l => l
  rules : List (Item K Int) → List (Item K Int) := fun l => l
  overrides : List (OItem K Int) → List (OItem K Int) := fun l => l
  counters : List (Item K Int) → List (Item K Int) := fun l => l
  destroy : List (Item K (OItem K Int)) → List (Item K (OItem K Int)) := fun l => l

/-- A rule of the answer of FindLimits: rules_client_local.go:484-498. -/
structure Found where
  id : Nat
  keys : List GoString
  limit : Int
  /-- keys and limit of the overrides -/
  overrides : List (List GoString × Int)

/-- Answers. -/
inductive Out (K : Type) where
  | ok
  | created (id : Nat)
  /-- 400 -/
  | badRequest
  /-- 404 -/
  | notFound
  /-- 409 -/
  | conflict
  /-- 500 -/
  | internal
  /-- 200 with the key-values and limit of a rule or override -/
  | one (kvs : KVs K) (limit : Int)
  /-- 200 with counters -/
  | counters (l : List (KVs K × Int))

/-- What an iteration visits: the callback answers whether to go on; the item it stops at is visited too. -/
def visited {A : Type} (goOn : A → Bool) : List A → List A
  | [] => []
  | a :: l => if goOn a then a :: visited goOn l else [a]

section
variable [KeyOps K]

/-! ### Rules -/

/-- rules_client_local.go:52-79 `CreateRule`. -/
def createRule (st : State K) (kvs : KVs K) (limit : Int) : Option (State K × Out K) :=
  match st.rules.create kvs (some limit) with
  | (t, .created id) => some ({ st with rules := t }, .created id)
  | (t, .exists_) => some ({ st with rules := t }, .conflict)
  | (t, _) => some ({ st with rules := t }, .internal)

/-- rules_client_local.go:157-195 `GetRule`. -/
def getRule (st : State K) (id : Nat) : Option (State K × Out K) :=
  match st.rules.queryAction (idQuery id) with
  | none => none
  | some [] => some (st, .notFound)
  | some (i :: _) => some (st, .one i.kvs i.value)

/-- rules_client_local.go:206-233 `UpdateRule`. -/
def updateRule (st : State K) (id : Nat) (limit : Int) : Option (State K × Out K) :=
  match st.rules.queryAction (idQuery id) with
  | none => none
  | some [] => some (st, .notFound)
  | some (i :: _) => some ({ st with rules := modify st.rules i.id (fun _ => limit) }, .ok)

/-- rules_client_local.go:236-272 `DeleteRule`, overrides_client_local.go:253-280 `DestroyOverrides`. -/
def deleteRule (st : State K) (ch : Choice K) (id : Nat) : Option (State K × Out K) :=
  match st.rules.itemById id with
  | none => some (st, .notFound)
  | some _ =>
    match OTM.destroyOne st.overrides (idStr id) (some fun _ => true) ch.destroy with
    | none => none
    | some (o, .error _) => some ({ st with overrides := o }, .internal)
    | some (o, _) =>
      match st.rules.destroyById id (some fun _ => true) with
      | none => none
      | some (t, _) => some ({ st with rules := t, overrides := o }, .ok)

/-! ### Overrides -/

/-- rules_client_local.go:282-287: a group-by key of the rule is missing in the override. -/
def missesKey (rule kvs : KVs K) : Bool := rule.any (fun kv => !kvs.any (fun x => x.1 == kv.1))

/-- rules_client_local.go:275-311 `CreateOverride`, overrides_client_local.go:46-75 `CreateOverride`. -/
def createOverride (st : State K) (rule : Nat) (kvs : KVs K) (limit : Int) : Option (State K × Out K) :=
  match st.rules.queryAction (idQuery rule) with
  | none => none
  | some [] => some (st, .notFound)
  | some (i :: _) =>
    if missesKey i.kvs kvs then some (st, .badRequest)
    else
      match OTM.createOrFind st.overrides (idStr rule) kvs (some limit) with
      | none => none
      | some (o, .created id) => some ({ st with overrides := o }, .created id)
      | some (o, .found _) => some ({ st with overrides := o }, .conflict)
      | some (o, _) => some ({ st with overrides := o }, .internal)

/-- overrides_client_local.go:77-116 `GetOverride` inside rules_client_local.go:376-407 `GetOverride`. -/
def getOverride (st : State K) (rule id : Nat) : Option (State K × Out K) :=
  match st.rules.queryAction (idQuery rule) with
  | none => none
  | some [] => some (st, .notFound)
  | some (_ :: _) =>
    match OTM.query st.overrides (idStr rule) (idQuery id) with
    | none => none
    | some (_, .visited []) => some (st, .notFound)
    | some (_, .visited (x :: _)) => some (st, .one x.kvs x.value)
    | some _ => some (st, .internal)

/-- The query of overrides_client_local.go:196-219 `UpdateOverride` with its callback. -/
def setOverride (id : Nat) (limit : Int) (t : ATree K (OItem K Int)) : Option (ATree K (OItem K Int) × OOut K Int) :=
  match t.queryAction (idQuery id) with
  | none => none
  | some [] => some (t, .visited [])
  | some (i :: _) => some (modify t i.id (fun x => { x with value := limit }), .visited [i.value])

/-- overrides_client_local.go:196-219 `UpdateOverride` inside rules_client_local.go:410-439 `UpdateOverride`. -/
def updateOverride (st : State K) (rule id : Nat) (limit : Int) : Option (State K × Out K) :=
  match st.rules.queryAction (idQuery rule) with
  | none => none
  | some [] => some (st, .notFound)
  | some (_ :: _) =>
    match OTM.onRelation st.overrides (idStr rule) (setOverride id limit) (.visited []) with
    | none => none
    | some (o, .visited []) => some ({ st with overrides := o }, .notFound)
    | some (o, .visited (_ :: _)) => some ({ st with overrides := o }, .ok)
    | some (o, _) => some ({ st with overrides := o }, .internal)

/-- overrides_client_local.go:119-155 `QueryOverrides` inside rules_client_local.go:314-342 `QueryOverrides`: the overrides of a rule
that satisfy a query, `some none` for an error answer.  It changes nothing and is not among the requests of a history (`Op`). -/
def queryOverrides (st : State K) (rule : Nat) (q : Query K) : Option (Option (List (OItem K Int))) :=
  match st.rules.queryAction (idQuery rule) with
  | none => none
  | some [] => some none
  | some (_ :: _) =>
    match OTM.query st.overrides (idStr rule) q with
    | none => none
    | some (_, .visited l) => some (some l)
    | some _ => some none

/-- overrides_client_local.go:221-251 `DestroyOverride` inside rules_client_local.go:442-467 `DeleteOverride`. -/
def deleteOverride (st : State K) (rule id : Nat) : Option (State K × Out K) :=
  match st.rules.queryAction (idQuery rule) with
  | none => none
  | some [] => some (st, .notFound)
  | some (_ :: _) =>
    match OTM.destroyManyByID st.overrides (idStr rule) id (some fun _ => true) with
    | none => none
    | some (o, .error _) => some ({ st with overrides := o }, .internal)
    | some (o, _) => some ({ st with overrides := o }, .ok)

/-! ### Limits -/

/-- overrides_client_local.go:282-320 `FindOverrideLimits`: keys and limits of the visited overrides; `some none` = error. -/
def findOverrideLimits (st : State K) (ch : Choice K) (rule : Nat) (kvs : KVs K) : Option (Option (List (List GoString × Int))) :=
  match OTM.matchAction st.overrides (idStr rule) ch.shuffle (anyMatchQuery kvs) with
  | none => none
  | some (_, .visited l) => some (some ((visited (fun x => x.value != 0) (ch.overrides l)).map (fun x => (x.kvs.map (·.1), x.value))))
  | some _ => some none

/-- rules_client_local.go:501-510: does the iteration over the rules go on after this one? -/
def ruleGoesOn (r : Found) : Bool :=
  match r.overrides.getLast? with
  | none => r.limit != 0
  | some o => !(r.limit == 0 && o.2 == 0)

/-- rules_client_local.go:475-513: the iteration over the matching rules; `some none` = error. -/
def findLimitsLoop (st : State K) (ch : Choice K) (kvs : KVs K) : List (Item K Int) → Option (Option (List Found))
  | [] => some (some [])
  | i :: is =>
    match findOverrideLimits st ch i.id kvs with
    | none => none
    | some none => some none
    | some (some os) =>
      let r : Found := ⟨i.id, i.kvs.map (·.1), i.value, os⟩
      if ruleGoesOn r then
        match findLimitsLoop st ch kvs is with
        | some (some rs) => some (some (r :: rs))
        | e => e
      else some (some [r])

/-- rules_client_local.go:469-529 `FindLimits`. -/
def findLimits (st : State K) (ch : Choice K) (kvs : KVs K) : Option (Option (List Found)) :=
  match st.rules.matchAction ch.shuffle (anyMatchQuery kvs) with
  | none => none
  | some l => findLimitsLoop st ch kvs (ch.rules l)

/-! ### Counters -/

/-- counter_client_local.go:240-256: the query of `checkCounters`.  (`counteKeyValyes[ruleKey]` of a key the counter does not have
would be an empty value; the matching rules and overrides have only keys of the counter.) -/
def checkQuery (keys : List GoString) (kvs : KVs K) : Query K :=
  .mk (some { kvs := (kvs.filter (fun kv => keys.contains kv.1)).map (fun kv => (kv.1, ⟨kv.2, .eq, ⟨KeyOps.typ kv.2, KeyOps.typ kv.2⟩⟩)) }) [] [] true

/-- counter_client_local.go:258-262: the int64 sum over the visited counters, stopping when the limit is reached. -/
def sumUntil (limit : Int) (acc : Int) : List Int → Int
  | [] => acc
  | v :: l => if add64 acc v < limit then sumUntil limit (add64 acc v) l else add64 acc v

/-- counter_client_local.go:237-276 `checkCounters`: is the limit not reached yet? -/
def checkCounters (st : State K) (ch : Choice K) (keys : List GoString) (kvs : KVs K) (limit : Int) : Option Bool :=
  match st.counters.queryAction (checkQuery keys kvs) with
  | none => none
  | some l => some (decide (sumUntil limit 0 ((ch.counters l).map (·.value)) < limit))

/-- counter_client_local.go:190-217: check a list of limits; the first that is reached rejects. -/
def checkAll (st : State K) (ch : Choice K) (kvs : KVs K) : List (List GoString × Int) → Option Bool
  | [] => some true
  | (keys, limit) :: rest =>
    if limit == -1 then checkAll st ch kvs rest
    else match checkCounters st ch keys kvs limit with
      | none => none
      | some false => some false
      | some true => checkAll st ch kvs rest

/-- The limits a found rule stands for: counter_client_local.go:191-216 (the same distinction at 90-97 and 101-116). -/
def Found.limits (r : Found) : List (List GoString × Int) := if r.overrides.isEmpty then [(r.keys, r.limit)] else r.overrides

/-- counter_client_local.go:89-97: the last limit of the last rule is 0. -/
def lastIsZero (rules : List Found) : Bool :=
  match rules.getLast? with
  | none => false
  | some r => match r.limits.getLast? with | some l => l.2 == 0 | none => false

/-- counter_client_local.go:99-124: a limit is not -1. -/
def limited (rules : List Found) : Bool := rules.any (fun r => r.limits.any (fun l => l.2 != -1))

/-- counter_client_local.go:220-234: create the counter or add to it. -/
def addCounter (st : State K) (kvs : KVs K) (c : Int) : Option (State K × Out K) :=
  match st.counters.createOrFind kvs (some c) with
  | none => none
  | some (t, .found i) => some ({ st with counters := modify t i.id (fun v => add64 v c) }, .ok)
  | some (t, _) => some ({ st with counters := t }, .ok)

/-- counter_client_local.go:78-235 `IncrementCounters`. -/
def increment (st : State K) (ch : Choice K) (kvs : KVs K) (c : Int) : Option (State K × Out K) :=
  match findLimits st ch kvs with
  | none => none
  | some none => some (st, .internal)
  | some (some rules) =>
    if lastIsZero rules then some (st, .conflict)
    else if limited rules then
      match checkAll st ch kvs (rules.flatMap Found.limits) with
      | none => none
      | some false => some (st, .conflict)
      | some true => addCounter st kvs c
    else addCounter st kvs c

/-- counter_client_local.go:283-296 `DecrementCounters`: the canDelete callback changes the counter. -/
def decrement (st : State K) (kvs : KVs K) (c : Int) : Option (State K × Out K) :=
  match st.counters.delete kvs (some fun i => decide (add64 i.value c ≤ 0)) with
  | (t, none) => some ({ st with counters := t }, .ok)
  | (t, some i) => some ({ st with counters := if add64 i.value c ≤ 0 then t else modify t i.id (fun v => add64 v c) }, .ok)

/-- api/v1/handlers/counters_handler.go:18-63 `UpsertCounters`. -/
def upsert (st : State K) (ch : Choice K) (kvs : KVs K) (c : Int) : Option (State K × Out K) :=
  if c > 0 then increment st ch kvs c else decrement st kvs c

/-- counter_client_local.go:298-330 `SetCounter`. -/
def setCounter (st : State K) (kvs : KVs K) (c : Int) : Option (State K × Out K) :=
  if c ≤ 0 then some ({ st with counters := (st.counters.delete kvs (some fun _ => true)).1 }, .ok)
  else
    match st.counters.createOrFind kvs (some c) with
    | none => none
    | some (t, .found i) => some ({ st with counters := modify t i.id (fun _ => c) }, .ok)
    | some (t, _) => some ({ st with counters := t }, .ok)

/-- counter_client_local.go:45-76 `QueryCounters`. -/
def queryCounters (st : State K) (q : Query K) : Option (State K × Out K) :=
  match st.counters.queryAction q with
  | none => none
  | some l => some (st, .counters (l.map (fun i => (i.kvs, i.value))))

/-! ### Histories -/

/-- A request (after validation), with the random orders it happens to use. -/
inductive Op (K : Type) where
  | createRule (kvs : KVs K) (limit : Int)
  | getRule (id : Nat)
  | updateRule (id : Nat) (limit : Int)
  | deleteRule (ch : Choice K) (id : Nat)
  | createOverride (rule : Nat) (kvs : KVs K) (limit : Int)
  | getOverride (rule id : Nat)
  | updateOverride (rule id : Nat) (limit : Int)
  | deleteOverride (rule id : Nat)
  | upsert (ch : Choice K) (kvs : KVs K) (c : Int)
  | setCounter (kvs : KVs K) (c : Int)
  | queryCounters (q : Query K)

/-- One request (the functions cited above). -/
def step (st : State K) : Op K → Option (State K × Out K)
  | .createRule kvs l => createRule st kvs l
  | .getRule id => getRule st id
  | .updateRule id l => updateRule st id l
  | .deleteRule ch id => deleteRule st ch id
  | .createOverride r kvs l => createOverride st r kvs l
  | .getOverride r id => getOverride st r id
  | .updateOverride r id l => updateOverride st r id l
  | .deleteOverride r id => deleteOverride st r id
  | .upsert ch kvs c => upsert st ch kvs c
  | .setCounter kvs c => setCounter st kvs c
  | .queryCounters q => queryCounters st q

/-- A history of requests. -/
def run (st : State K) : List (Op K) → Option (State K × List (Out K))
  | [] => some (st, [])
  | op :: ops => match step st op with
    | none => none
    | some (st', out) => match run st' ops with
      | none => none
      | some (st'', outs) => some (st'', out :: outs)

end
end Willow.Limiter
