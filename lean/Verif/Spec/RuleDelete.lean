import Verif.Model.RuleDelete
import Verif.Spec.Limiter
/-!
Words for C91: rules that are being deleted, and what a history of requests asks for.
-/
namespace Willow.RuleDelete
open Willow Willow.Assoc Willow.Spec Willow.Limiter Willow.LimSpec

/-- DeleteRule for this rule has begun and is not answered yet. -/
def Deleting (s : Sys Key) (id : Nat) : Prop := ∃ b, (id, b) ∈ s.closing

/-- The rules nobody is deleting, with their overrides. -/
def visible (s : Sys Key) : List Rule := (abs s.st).rules.filter (fun r => !s.isClosing r.id)

/-- The requests of a history other than DeleteRule, in the order of their answers. -/
def requests : List (Ev Key) → List (Op Key)
  | [] => []
  | .served op _ :: evs => op :: requests evs
  | _ :: evs => requests evs

/-- All requests pass validation, and all amounts together are an int64. -/
def Fine (evs : List (Ev Key)) : Prop := (∀ op ∈ requests evs, LimSpec.ValidOp op) ∧ totalAmount (requests evs) < 2 ^ 63

/-- The state of a limiter with only some of its rules. -/
def withRules (st : St) (rules : List Rule) : St := { st with rules := rules }

/-- The rule that a request (other than DeleteRule) is for: GET and PUT of the rule, and every request for its overrides. -/
def concerns : Limiter.Op Key → Option Nat
  | .getRule id | .updateRule id _ => some id
  | .createOverride id _ _ | .getOverride id _ | .updateOverride id _ _ | .deleteOverride id _ => some id
  | .createRule .. | .deleteRule .. | .upsert .. | .setCounter .. | .queryCounters .. => none

/-- Is this an increment? -/
def Increases : Limiter.Op Key → Bool
  | .upsert _ _ c => decide (c > 0)
  | _ => false

/-- The effect of a request other than DeleteRule on the rules, overrides and counters: a request for a rule that is being deleted is told that it is missing; an increment takes some of
the applicable rules into account, in some order, up to the first that is being deleted; everything else is as without deletions. -/
def Serves (s s' : Sys Key) (op : Limiter.Op Key) (out : Out Key) : Prop :=
  (Increases op = false → (∀ id, concerns op = some id → Deleting s id → s' = s ∧ out = .notFound) ∧
    ((∀ id, concerns op = some id → ¬ Deleting s id) → abs s'.st = (specStep (abs s.st) op).1 ∧ LimSpec.Same out (specStep (abs s.st) op).2)) ∧
  (∀ ch kvs c, op = .upsert ch kvs c → 0 < c → ∃ l : List LimSpec.Rule, l.Perm ((abs s.st).rules.filter (fun r => applies r.kvs kvs)) ∧
    if allowed (withRules (abs s.st) (l.takeWhile (fun r => !s.isClosing r.id))) kvs
    then out = .ok ∧ abs s'.st = { abs s.st with counters := putCounter (abs s.st).counters kvs c (· + c) } else out = .conflict ∧ s' = s)

/-- The effect of a step. -/
def Effect (s s' : Sys Key) : Option (Ev Key) → Prop
  | some (.served op out) => Serves s s' op out ∧ s'.closing = s.closing
  | some (.begin id) => abs s'.st = abs s.st ∧ (∃ r ∈ (abs s.st).rules, r.id = id) ∧ ¬ Deleting s id ∧ ∀ x, Deleting s' x ↔ Deleting s x ∨ x = id
  | some (.deleted id out) =>
    (out = .ok ∧ Deleting s id ∧ abs s'.st = { abs s.st with rules := (abs s.st).rules.filter (fun r => r.id != id) } ∧ ∀ x, Deleting s' x ↔ Deleting s x ∧ x ≠ id) ∨
    (out = .conflict ∧ Deleting s id ∧ s' = s) ∨
    (out = .notFound ∧ (∀ r ∈ (abs s.st).rules, r.id ≠ id) ∧ s' = s)
  | none => ∃ id, Deleting s id ∧ abs s'.st = (abs s.st).setRule id (fun r => { r with overrides := [], nextId := 0 }) ∧ ∀ x, Deleting s' x ↔ Deleting s x

end Willow.RuleDelete
