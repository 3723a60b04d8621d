import Verif.Model.LimitWait
import Verif.Spec.LimiterClient
/-
Specification for C92: which limits stand in the way of a channel, and the moments of a check.
-/
namespace Willow.LimitWaitSpec
open Willow Willow.Assoc Willow.Spec Willow.LimSpec Willow.Limiter Willow.LimHttp Willow.LimHttpSpec Willow.LimitWait

/-- Key-values of a counter that are sent as they are: keys in UTF-8, no wildcards. -/
structure Sent (kvs : KVs Key) : Prop where
  valid : ValidKVs kvs
  typed : Typed kvs
  utf8 : LimClientSpec.KeysOk kvs

/-- The limits of a rule that count for key-values, with the key-values of the rule or override: the rule must apply; its own limit counts only if none of
its overrides applies. -/
def ruleInForce (kvs : KVs Key) (r : Rule) : List (KVs Key × Int) :=
  if applies r.kvs kvs then
    match r.overrides.filter (fun o => applies o.kvs kvs) with
    | [] => [(r.kvs, r.limit)]
    | os => os.map (fun o => (o.kvs, o.limit))
  else []
/-- All limits that count for key-values. -/
def inForce (w : LimSpec.St) (kvs : KVs Key) : List (KVs Key × Int) := w.rules.flatMap (ruleInForce kvs)

/-- A limit is reached: the counters with the same values for its keys sum up to it. -/
def AtLimit (w : LimSpec.St) (kvs : KVs Key) (x : KVs Key × Int) : Prop := x.2 ≠ -1 ∧ x.2 ≤ groupTotal w.counters (x.1.map (·.1)) kvs
/-- The key-values of a rule or override have no wildcard. -/
def Exact (pat : KVs Key) : Prop := ∀ kv ∈ pat, wild kv.2 = false

/-- Requests that leave rules and overrides alone. -/
def KeepsRules : LimHttp.Req → Prop
  | .createRule _ | .updateRule .. | .deleteRule _ | .createOverride .. | .updateOverride .. | .deleteOverride .. => False
  | _ => True

/-- A check of the limits for `kvs`, from its beginning on a limiter after any history: the states of the limiter up to now, latest first; where the check
is; the sum of all amounts so far; whether an answer was lost.  `ok` says which requests others make meanwhile. -/
inductive Check (kvs : KVs Key) (h2 : Bool) (ok : LimHttp.Req → Prop) : List Srv → Pos → Int → Bool → Prop
  | start {s : Srv} {B : Int} : Reached s B → B < 2 ^ 63 → Check kvs h2 ok [s] .rules B false
  | other {s s' : Srv} {tr : List Srv} {p : Pos} {B : Int} {lost : Bool} {e : LimHttp.Env} {r : LimHttp.Req} {o : LimHttp.Reply} :
      Check kvs h2 ok (s :: tr) p B lost → ok r → WellTyped r → ValidChoice e.ch → LimHttp.handle s e r = (some s', o) →
      (IsOverrideRead r → Answered o) → B + amountOf r < 2 ^ 63 → Check kvs h2 ok (s' :: s :: tr) p (B + amountOf r) lost
  | ask {s s' : Srv} {tr : List Srv} {p : Pos} {B : Int} {lost : Bool} {e : LimHttp.Env} {c : LimClient.Call} {res : LimClient.Result} :
      Check kvs h2 ok (s :: tr) p B lost → ValidChoice e.ch → LimitWait.ask kvs p = some c → LimClient.call s h2 e c = (some s', res) →
      Check kvs h2 ok (s' :: s :: tr) (answer p res) B lost
  | lose {s : Srv} {tr : List Srv} {p : Pos} {B : Int} {lost : Bool} {c : LimClient.Call} :
      Check kvs h2 ok (s :: tr) p B lost → LimitWait.ask kvs p = some c → Check kvs h2 ok (s :: tr) (answer p .failed) B true

/-- The check notices a limit: it is 0, or it is reached and its rule or override has no wildcard. -/
def Notices (w : LimSpec.St) (kvs : KVs Key) : Prop := ∃ x ∈ inForce w kvs, x.2 = 0 ∨ (AtLimit w kvs x ∧ Exact x.1)

/-- Among these states, latest first, there is one without a rule that was there before. -/
def RuleDeleted (tr : List Srv) : Prop :=
  ∃ (id : Nat) (later : List Srv) (t : Srv) (earlier : List Srv) (t' : Srv), tr = later ++ t :: earlier ∧ t' ∈ earlier ∧
    (∃ r ∈ (Limiter.abs t'.lim).rules, r.id = id) ∧ ∀ r ∈ (Limiter.abs t.lim).rules, r.id ≠ id

end Willow.LimitWaitSpec
