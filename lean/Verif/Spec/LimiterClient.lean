import Verif.Model.LimiterClient
import Verif.Spec.LimiterHttp
import Verif.Spec.Client
/-
Specification for C83: what the calls of the limiter client ask for, and what their results say.
-/
namespace Willow.LimClientSpec
open Willow Willow.Assoc Willow.Spec Willow.Limiter Willow.Requests Willow.LimHttp Willow.LimClient Willow.ClientSpec

/-- The client accepts the call: its argument passes the validator. -/
def Accepted : LimClient.Call → Prop
  | .createRule b => b.validateRule = true
  | .createOverride _ b => b.validateSpecOnly = true
  | .queryRules q | .queryOverrides _ q | .queryCounters q => validQuery q = true
  | .matchRules m | .matchOverrides _ m => validMatch m = true
  | .updateRule _ p | .updateOverride _ _ p => p.validate = true
  | .updateCounter b | .setCounters b => b.validateSpecOnly = true
  | .getRule _ | .deleteRule _ | .getOverride _ _ | .deleteOverride _ _ => True

/-- What a call asks of the service. -/
def asks : LimClient.Call → LimHttp.Req
  | .createRule b => .createRule (some b)
  | .queryRules q => .queryRules (some q)
  | .matchRules m => .matchRules (some m)
  | .getRule n => .getRule n
  | .updateRule n p => .updateRule n (some p)
  | .deleteRule n => .deleteRule n
  | .createOverride n b => .createOverride n (some b)
  | .queryOverrides n q => .queryOverrides n (some q)
  | .matchOverrides n m => .matchOverrides n (some m)
  | .getOverride n o => .getOverride n o
  | .updateOverride n o p => .updateOverride n o (some p)
  | .deleteOverride n o => .deleteOverride n o
  | .updateCounter b => .upsert (some b)
  | .queryCounters q => .queryCounters (some q)
  | .setCounters b => .setCounters (some b)

/-! ### What survives the way to the service -/

/-- "query" and "match": the names of operations in URLs. -/
def Reserved (n : GoString) : Prop := n = [113, 117, 101, 114, 121] ∨ n = [109, 97, 116, 99, 104]

instance (n : GoString) : Decidable (Reserved n) := by unfold Reserved; infer_instance

/-- The names in a call mean themselves in its URL. -/
def NamesOk : LimClient.Call → Prop
  | .getRule n => Plain n ∧ ¬ Reserved n
  | .getOverride n o => Plain n ∧ Plain o ∧ ¬ Reserved o
  | .updateRule n _ | .deleteRule n | .createOverride n _ | .queryOverrides n _ | .matchOverrides n _ => Plain n
  | .updateOverride n o _ | .deleteOverride n o => Plain n ∧ Plain o
  | _ => True

/-- Every key is UTF-8. -/
def KeysOk {A : Type} (l : List (GoString × A)) : Prop := ∀ x ∈ l, ValidUtf8 x.1
/-- A query without lists that are there but empty: these are not sent. -/
def NoEmptyLists : Query Key → Prop
  | .mk _ or and nl => or = [] → and = [] → nl = true
/-- The query is sent as it is. -/
def QueryOk (q : Query Key) : Prop := everywhere (fun s => KeysOk s.kvs) NoEmptyLists q ∧ NoEmptyLists q
/-- The key-values in a body are sent as they are. -/
def BodyOk : LimClient.Call → Prop
  | .createRule b | .createOverride _ b => ∀ kvs p, b.spec = some (some kvs, p) → KeysOk kvs
  | .updateCounter b | .setCounters b => ∀ kvs p, b.spec = some (some kvs, p) → KeysOk kvs
  | .queryRules q | .queryOverrides _ q | .queryCounters q => QueryOk q
  | .matchRules m | .matchOverrides _ m => KeysOk m.kvs
  | _ => True

/-- Go maps: the keys of the key-values in a call are different. -/
def GoMaps : LimClient.Call → Prop
  | .createRule b | .createOverride _ b => ∀ kvs p, b.spec = some (some kvs, p) → (kvs.map (·.1)).Nodup
  | .updateCounter b | .setCounters b => ∀ kvs p, b.spec = some (some kvs, p) → (kvs.map (·.1)).Nodup
  | .queryRules q | .queryOverrides _ q | .queryCounters q => everywhere (fun s => (s.kvs.map (·.1)).Nodup) (fun _ => True) q
  | .matchRules m | .matchOverrides _ m => (m.kvs.map (·.1)).Nodup
  | _ => True

/-! ### Results -/

/-- The call returns no error. -/
def NoError : Result → Prop
  | .ok | .one _ | .list _ | .counters _ => True
  | _ => False

/-- Calls that do not know that something is missing: a 404 is reported as an unexpected status. -/
def Deaf404 : LimClient.Call → Prop
  | .deleteRule _ | .queryOverrides .. | .matchOverrides .. => True
  | _ => False

/-- What a call returns for an answer of the service. -/
def Tells (c : LimClient.Call) : LimHttp.Reply → Result → Prop
  | .done, r => r = .ok
  | .created e, r | .one e, r => r = .one e
  | .list l, r => ∃ l', r = .list l' ∧ l'.Perm l
  | .counters l, r => ∃ l', r = .counters l' ∧ l'.Perm l
  | .error code, r => (r = .apiError code ∧ ¬ (code = 404 ∧ Deaf404 c)) ∨ (r = .failed ∧ code = 404 ∧ Deaf404 c)
  | .panicked, _ | .stalls, _ => False

end Willow.LimClientSpec
