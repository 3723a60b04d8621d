import Verif.Model.Queues
/-
Specification of the queues: a finite map from names to limits.
-/
namespace Willow.QueuesSpec
open Willow Willow.Assoc Willow.Spec Willow.Queues Willow.LimSpec Willow.Queue

/-- Names and limits of the queues; no name twice. -/
abbrev Map := List (GoString × Int)

/-- The queue of a name. -/
def Map.get? (m : Map) (n : GoString) : Option Int := (m.find? (fun q => q.1 == n)).map (·.2)
/-- `m` with another limit for `n`. -/
def Map.set (m : Map) (n : GoString) (l : Int) : Map := m.map (fun q => if q.1 == n then (n, l) else q)
/-- `m` without `n`. -/
def Map.del (m : Map) (n : GoString) : Map := m.filter (fun q => q.1 != n)

/-- One request on the map.  A create or update whose request to the limiter fails, and a delete whose request fails, answer 500 and
change nothing. -/
def specStep (m : Map) : Req → Map × Out
  | .create n l up => match m.get? n with
    | some _ => (m, .conflict)
    | none => if up ∧ -1 ≤ l then (m ++ [(n, l)], .ok) else (m, .internal)
  | .get n => match m.get? n with
    | some l => (m, .one (n, l))
    | none => (m, .notFound)
  | .list => (m, .all m)
  | .update n l _ up => match m.get? n with
    | some _ => if up ∧ -1 ≤ l then (m.set n l, .ok) else (m, .internal)
    | none => (m, .notFound)
  | .delete n _ up => match m.get? n with
    | some _ => if up then (m.del n, .ok) else (m, .internal)
    | none => (m, .ok)
  | .other _ => (m, .ok)

/-- A history on the map. -/
def specRun (m : Map) : List Req → Map × List Out
  | [] => (m, [])
  | r :: rs => ((specRun (specStep m r).1 rs).1, (specStep m r).2 :: (specRun (specStep m r).1 rs).2)

/-- The same answer; the order of a list of queues is not specified. -/
def Same : Out → Out → Prop
  | .all l, .all l' => l.Perm l'
  | a, b => a = b

/-- Another user's request to the limiter leaves willow's rule and its overrides alone. -/
def OffRule (rule : Nat) : Limiter.Op Key → Prop
  | .deleteRule _ i | .updateRule i _ => i ≠ rule
  | .createOverride i _ _ | .updateOverride i _ _ | .deleteOverride i _ => i ≠ rule
  | _ => True

/-- Limits are int64; other users send valid requests. -/
def ValidReq (rule : Nat) : Req → Prop
  | .create _ l _ | .update _ l _ _ => Int64 l
  | .other op => LimSpec.ValidOp op ∧ OffRule rule op
  | _ => True

/-- How much other users add to counters. -/
def reqAmount : Req → Int
  | .other op => amount op
  | _ => 0

/-- The sum over a history. -/
def reqsAmount (rs : List Req) : Int := (rs.map reqAmount).sum

/-- What the partial theorem leaves out: a create may fail only if at most one queue has a greater name, an update of a queue must not fail, and
the limiter must answer the query of an update or delete. -/
def Safe (m : Map) : Req → Prop
  | .create n l up => (up = true ∧ -1 ≤ l) ∨ (m.filter (fun q => strLt n q.1)).length ≤ 1
  | .update n l upQ up => m.get? n = none ∨ (upQ = true ∧ up = true ∧ -1 ≤ l)
  | .delete n upQ _ => m.get? n = none ∨ upQ = true
  | _ => True

/-- Every request of the history is safe when it is made. -/
def SafeRun (m : Map) : List Req → Prop
  | [] => True
  | r :: rs => Safe m r ∧ SafeRun (specStep m r).1 rs

/-- The limiter enforces exactly these limits: unknown queues have limit 0, and the overrides of the rule for all queues are those of the queues, with their limits. -/
def Enforced (s : Queues.St) (m : Map) : Prop :=
  ∃ r ∈ (Limiter.abs s.lim).rules, r.id = s.rule ∧ r.kvs = ruleKVs ∧ r.limit = 0 ∧
    ∀ kvs l, (∃ o ∈ r.overrides, o.kvs = kvs ∧ o.limit = l) ↔ ∃ q ∈ m, kvs = overrideKVs q.1 ∧ l = q.2

end Willow.QueuesSpec
