import Verif.Model.Limiter
import Verif.Spec.OneToMany
/-
Specification of the limiter: a plain list of rules, each with its own overrides, and a plain list of counters.
-/
namespace Willow.LimSpec
open Willow Willow.Assoc Willow.Spec Willow.Limiter

/-- An override of a rule. -/
structure Override where
  id : Nat
  kvs : KVs Key
  limit : Int

/-- A rule with its overrides, oldest first; `nextId` is the id the next override gets. -/
structure Rule where
  id : Nat
  kvs : KVs Key
  limit : Int
  overrides : List Override
  nextId : Nat

/-- A counter. -/
structure Counter where
  kvs : KVs Key
  value : Int

/-- All rules and counters, oldest first; `nextId` is the id the next rule gets. -/
structure St where
  rules : List Rule
  nextId : Nat
  counters : List Counter

/-! ### Limits -/

/-- A rule or override with key-values `pat` applies to a counter: the counter has all its keys, with the same value or where the
rule accepts any value. -/
def applies (pat kvs : KVs Key) : Bool :=
  pat.all (fun p => match valueOf kvs p.1 with | some v => same p.2 v || wild p.2 | none => false)

/-- Two counters have the same values for the given keys. -/
def agree (keys : List GoString) (a b : KVs Key) : Bool :=
  keys.all (fun k => match valueOf a k, valueOf b k with | some v, some w => same v w | _, _ => false)

/-- The total of all counters that have the same values as `kvs` for the given keys. -/
def groupTotal (cs : List Counter) (keys : List GoString) (kvs : KVs Key) : Int :=
  ((cs.filter (fun c => agree keys kvs c.kvs)).map (·.value)).sum

/-- The limits of one rule for a counter: the rule must apply; its own limit counts only if none of its overrides applies. -/
def ruleLimits (kvs : KVs Key) (r : Rule) : List (List GoString × Int) :=
  if applies r.kvs kvs then
    match r.overrides.filter (fun o => applies o.kvs kvs) with
    | [] => [(r.kvs.map (·.1), r.limit)]
    | os => os.map (fun o => (o.kvs.map (·.1), o.limit))
  else []

/-- All limits for a counter: the keys that make up the group, and the limit. -/
def effective (rules : List Rule) (kvs : KVs Key) : List (List GoString × Int) := rules.flatMap (ruleLimits kvs)

/-- May the counter be increased: every limit is -1 or not yet reached. -/
def allowed (st : St) (kvs : KVs Key) : Bool :=
  (effective st.rules kvs).all (fun kl => kl.2 == -1 || decide (groupTotal st.counters kl.1 kvs < kl.2))

/-! ### Counters -/

/-- Is there a counter with these key-values? -/
def present (cs : List Counter) (kvs : KVs Key) : Bool := cs.any (fun c => sameKVs kvs c.kvs)
/-- Change the value of the counter with these key-values. -/
def changeCounter (cs : List Counter) (kvs : KVs Key) (f : Int → Int) : List Counter :=
  cs.map (fun c => if sameKVs kvs c.kvs then { c with value := f c.value } else c)
/-- Remove the counter with these key-values. -/
def removeCounter (cs : List Counter) (kvs : KVs Key) : List Counter := cs.filter (fun c => !sameKVs kvs c.kvs)
/-- Store or change a counter. -/
def putCounter (cs : List Counter) (kvs : KVs Key) (c : Int) (f : Int → Int) : List Counter :=
  if present cs kvs then changeCounter cs kvs f else cs ++ [⟨kvs, c⟩]
/-- The value of a counter; 0 if it is not stored. -/
def valueAt (cs : List Counter) (kvs : KVs Key) : Int := match cs.find? (fun c => sameKVs kvs c.kvs) with | some c => c.value | none => 0

/-! ### Requests -/

/-- Find a rule. -/
def St.rule? (st : St) (id : Nat) : Option Rule := st.rules.find? (fun r => r.id == id)
/-- Change a rule. -/
def St.setRule (st : St) (id : Nat) (f : Rule → Rule) : St := { st with rules := st.rules.map (fun r => if r.id == id then f r else r) }
/-- Find an override. -/
def Rule.override? (r : Rule) (id : Nat) : Option Override := r.overrides.find? (fun o => o.id == id)
/-- Change an override. -/
def Rule.setOverride (r : Rule) (id : Nat) (limit : Int) : Rule :=
  { r with overrides := r.overrides.map (fun o => if o.id == id then { o with limit := limit } else o) }

/-- One request on the plain state. -/
def specStep (st : St) : Op Key → St × Out Key
  | .createRule kvs l =>
    if st.rules.any (fun r => sameKVs kvs r.kvs) then (st, .conflict)
    else ({ st with rules := st.rules ++ [⟨st.nextId, kvs, l, [], 0⟩], nextId := st.nextId + 1 }, .created st.nextId)
  | .getRule id => match st.rule? id with
    | none => (st, .notFound)
    | some r => (st, .one r.kvs r.limit)
  | .updateRule id l => match st.rule? id with
    | none => (st, .notFound)
    | some _ => (st.setRule id (fun r => { r with limit := l }), .ok)
  | .deleteRule _ id => match st.rule? id with
    | none => (st, .notFound)
    | some _ => ({ st with rules := st.rules.filter (fun r => r.id != id) }, .ok)
  | .createOverride rid kvs l => match st.rule? rid with
    | none => (st, .notFound)
    | some r =>
      if r.kvs.any (fun kv => !kvs.any (fun x => x.1 == kv.1)) then (st, .badRequest)
      else if kvs.any (fun kv => kv.1 == OTM.reservedID) then (st, .internal)
      else if r.overrides.any (fun o => sameKVs kvs o.kvs) then (st, .conflict)
      else (st.setRule rid (fun r => { r with overrides := r.overrides ++ [⟨r.nextId, kvs, l⟩], nextId := r.nextId + 1 }), .created r.nextId)
  | .getOverride rid id => match st.rule? rid with
    | none => (st, .notFound)
    | some r => match r.override? id with
      | none => (st, .notFound)
      | some o => (st, .one o.kvs o.limit)
  | .updateOverride rid id l => match st.rule? rid with
    | none => (st, .notFound)
    | some r => match r.override? id with
      | none => (st, .notFound)
      | some _ => (st.setRule rid (fun r => r.setOverride id l), .ok)
  | .deleteOverride rid id => match st.rule? rid with
    | none => (st, .notFound)
    | some _ => (st.setRule rid (fun r => { r with overrides := r.overrides.filter (fun o => o.id != id) }), .ok)
  | .upsert _ kvs c =>
    if c > 0 then
      if allowed st kvs then ({ st with counters := putCounter st.counters kvs c (· + c) }, .ok) else (st, .conflict)
    else if valueAt st.counters kvs + c ≤ 0 then ({ st with counters := removeCounter st.counters kvs }, .ok)
    else ({ st with counters := changeCounter st.counters kvs (· + c) }, .ok)
  | .setCounter kvs c =>
    if c ≤ 0 then ({ st with counters := removeCounter st.counters kvs }, .ok)
    else ({ st with counters := putCounter st.counters kvs c (fun _ => c) }, .ok)
  | .queryCounters q => (st, .counters ((st.counters.filter (fun c => satisfies q (⟨0, c.kvs, c.value⟩ : Item Key Int))).map (fun c => (c.kvs, c.value))))

/-- A history on the plain state. -/
def specRun (st : St) : List (Op Key) → St × List (Out Key)
  | [] => (st, [])
  | op :: ops => ((specRun (specStep st op).1 ops).1, (specStep st op).2 :: (specRun (specStep st op).1 ops).2)

/-- Nothing stored. -/
def St.init : St := ⟨[], 0, []⟩

/-- The same answer; the order of the counters of a query is not specified. -/
def Same : Out Key → Out Key → Prop
  | .counters l, .counters l' => l.Perm l'
  | a, b => a = b

/-- A limit that passes validation (int64, at least -1). -/
def ValidLimit (l : Int) : Prop := -1 ≤ l ∧ l < 2 ^ 63
/-- An int64. -/
def Int64 (c : Int) : Prop := -2 ^ 63 ≤ c ∧ c < 2 ^ 63
/-- Counters have no wildcard values. -/
def Typed (kvs : KVs Key) : Prop := ∀ kv ∈ kvs, wild kv.2 = false
/-- Orders of a list are permutations. -/
def ValidChoice (ch : Choice Key) : Prop :=
  (∀ l, (ch.shuffle l).Perm l) ∧ (∀ l, (ch.rules l).Perm l) ∧ (∀ l, (ch.overrides l).Perm l) ∧ (∀ l, (ch.counters l).Perm l) ∧ ∀ l, (ch.destroy l).Perm l

/-- Requests that pass validation; queries are outside the reported problems of C20 and do not select by id (counters have ids only internally). -/
def ValidOp : Op Key → Prop
  | .createRule kvs l => ValidKVs kvs ∧ ValidLimit l
  | .getRule _ => True
  | .updateRule _ l => ValidLimit l
  | .deleteRule ch _ => ValidChoice ch
  | .createOverride _ kvs l => ValidKVs kvs ∧ ValidLimit l
  | .getOverride _ _ => True
  | .updateOverride _ _ l => ValidLimit l
  | .deleteOverride _ _ => True
  | .upsert ch kvs c => ValidKVs kvs ∧ Typed kvs ∧ Int64 c ∧ ValidChoice ch
  | .setCounter kvs c => ValidKVs kvs ∧ Typed kvs ∧ Int64 c
  | .queryCounters q => everywhere (fun s => ValidSel s ∧ SelExact s ∧ s.ids = []) Asks q ∧ (IsEmptyQuery q ∨ Asks q)

/-- How much a request can add to a counter. -/
def amount : Op Key → Int
  | .upsert _ _ c | .setCounter _ c => max c 0
  | _ => 0

/-- The sum of all amounts of a history. -/
def totalAmount (ops : List (Op Key)) : Int := (ops.map amount).sum

/-- Requests on rules and overrides. -/
def OnRules : Op Key → Prop
  | .upsert .. | .setCounter .. | .queryCounters .. => False
  | _ => True

/-! ### Histories that leave a limit alone -/

/-- A rule with this id, key-values and limit that has no overrides. -/
def HasRule (id : Nat) (rk : KVs Key) (L : Int) (st : St) : Prop := ∃ r ∈ st.rules, r.id = id ∧ r.kvs = rk ∧ r.limit = L ∧ r.overrides = []

/-- A rule and an override of it with these ids, key-values and limit. -/
def HasOverride (id : Nat) (rk : KVs Key) (oid : Nat) (ok : KVs Key) (L : Int) (st : St) : Prop :=
  ∃ r ∈ st.rules, r.id = id ∧ r.kvs = rk ∧ ∃ o ∈ r.overrides, o.id = oid ∧ o.kvs = ok ∧ o.limit = L

/-- Requests that leave the rule alone. -/
def KeepsRule (id : Nat) : Op Key → Prop
  | .updateRule i _ => i ≠ id
  | .deleteRule _ i => i ≠ id
  | .createOverride i _ _ => i ≠ id
  | _ => True

/-- Requests that leave the override alone. -/
def KeepsOverride (id oid : Nat) : Op Key → Prop
  | .deleteRule _ i => i ≠ id
  | .updateOverride i o _ => ¬ (i = id ∧ o = oid)
  | .deleteOverride i o => ¬ (i = id ∧ o = oid)
  | _ => True

end Willow.LimSpec

/-! ### The plain view of a limiter's state -/

namespace Willow.Limiter
open Willow Willow.Assoc Willow.Spec Willow.OTM Willow.LimSpec

/-- The overrides of a rule. -/
def ovs (o : OTM.Tree Key Int) (id : Nat) : List Override :=
  match rel o (idStr id) with
  | some t => t.items.map (fun j => ⟨j.id, j.kvs, j.value.value⟩)
  | none => []

/-- The id the next override of a rule gets. -/
def nxt (o : OTM.Tree Key Int) (id : Nat) : Nat :=
  match rel o (idStr id) with
  | some t => t.next
  | none => 0

/-- A stored rule with its overrides. -/
def absRule (o : OTM.Tree Key Int) (i : Item Key Int) : Rule := ⟨i.id, i.kvs, i.value, ovs o i.id, nxt o i.id⟩
/-- A stored counter. -/
def absCounter (i : Item Key Int) : Counter := ⟨i.kvs, i.value⟩
/-- The plain state behind a limiter: what its three trees store. -/
def abs (st : State Key) : St := ⟨st.rules.items.map (absRule st.overrides), st.rules.next, st.counters.items.map absCounter⟩

end Willow.Limiter
