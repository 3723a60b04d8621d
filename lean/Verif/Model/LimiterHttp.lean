import Verif.Model.LimiterReads
import Verif.Model.Requests
/-
The requests to the limiter as its handlers see them (internal/limiter/api/v1/handlers): the decoded bodies with their nil pointers, the
validators, the ids in the URL, and what happens after validation (Model/Limiter.lean, Model/LimiterReads.lean), one request at a time.

Simplifications:
* A body is decoded JSON.  A value that fails EncapsulatedValue.Validate is `none`; NaN values are left out.  Bodies that cannot be decoded, and
  queries with a null sub-query or with such a value, are `none`: all are answered with 400.
* An id is a number in the trees of the model and the string `Limiter.idStr` in requests (there: a UUID).
* net/http recovers a panic in the goroutine of a request: the connection ends without an answer (`panicked`).
* That the locker refuses a lock, that a rule is being destroyed and that the service shuts down are left out, as in Model/Limiter.lean.
-/
namespace Willow.LimHttp
open Willow Willow.Assoc Willow.Spec Willow.OTM Willow.Limiter Willow.Requests

/-! ### Bodies and validation -/

/-- pkg/models/api/limiter/v1/rule.go:98-104, override.go:88-90: an optional int64. -/
structure LimitProps where
  limit : Option Int
/-- rule.go:110-120, override.go:92-102 `Validate`. -/
def LimitProps.validate (p : LimitProps) : Bool := match p.limit with | some l => !decide (l < -1) | none => false

/-- rule.go:11-15, 52-58, 84-87, override.go:13-17, 47-53, 75-78: the optional Spec with DBDefinition.GroupByKeyValues and Properties; `state`: the
optional field State, and whether it passes validation. -/
structure LimitBody where
  spec : Option (Option RawKVs × Option LimitProps)
  state : Option Bool
/-- rule.go:39-49, 64-82, 89-95, override.go:35-45, 55-73, 80-86 `ValidateSpecOnly`. -/
def LimitBody.validateSpecOnly (b : LimitBody) : Bool :=
  match b.spec with
  | some (some kvs, some p) => validKVs true kvs && p.validate
  | _ => false
/-- rule.go:21-33 `Validate`. -/
def LimitBody.validateRule (b : LimitBody) : Bool := b.validateSpecOnly && (match b.state with | some ok => ok | none => true)

/-- pkg/models/api/limiter/v1/counter.go:11-15, 45-49, 71-73, 83-86. -/
structure CounterBody where
  spec : Option (Option RawKVs × Option (Option Int))
/-- counter.go:33-43, 51-69, 75-81, 88-94 `ValidateSpecOnly`. -/
def CounterBody.validateSpecOnly (b : CounterBody) : Bool :=
  match b.spec with
  | some (some kvs, some (some _)) => validKVs false kvs
  | _ => false

/-- pkg/models/api/common/v1/query_match_action/match_query.go:28-38, match_key_values.go:31-39, 47-57 `Validate`. -/
def validMatch (m : MatchQuery Key) : Bool :=
  !m.kvs.isEmpty && m.kvs.all (fun r => r.2.tr.validate && decide (KeyOps.typ r.2.value ≤ DataType.max))

/-! ### The service -/

/-- The trees, and the rules whose ids are in a node of a B-tree that a panic left read-locked.  A panic in the callback of an exact find skips
the unlock of the node (btree/threadsafe_find.go:87-120: `bn.lock.RUnlock()` is not deferred). -/
structure Srv where
  lim : State Key
  held : List Nat

/-- A service that has just started (cmd/limiter). -/
def Srv.init : Srv := ⟨State.init, []⟩

/-- What happens to a request. -/
inductive Reply
  /-- 200 or 204, without a body -/
  | done
  /-- 201 -/
  | created (e : Entry Key)
  /-- 200 -/
  | one (e : Entry Key)
  /-- 200 -/
  | list (l : List (Entry Key))
  /-- 200 -/
  | counters (l : List (KVs Key × Int))
  /-- 400, 404, 409 or 500 with a message -/
  | error (code : Nat)
  /-- the goroutine of the request panics -/
  | panicked
  /-- the request waits for ever -/
  | stalls

/-- What a request meets: the random orders of its visits (Limiter.Choice), and whether a write lock that it needs on the way to its own
node is one that is never released (only looked at if there is any). -/
structure Env where
  ch : Choice Key
  waits : Bool

/-- url_router.go:37-56.  `none` bodies cannot be decoded. -/
inductive Req
  | createRule (b : Option LimitBody)
  | queryRules (q : Option (Query Key))
  | matchRules (m : Option (MatchQuery Key))
  | getRule (n : GoString)
  | updateRule (n : GoString) (p : Option LimitProps)
  | deleteRule (n : GoString)
  | createOverride (n : GoString) (b : Option LimitBody)
  | queryOverrides (n : GoString) (q : Option (Query Key))
  | matchOverrides (n : GoString) (m : Option (MatchQuery Key))
  | getOverride (n o : GoString)
  | updateOverride (n o : GoString) (p : Option LimitProps)
  | deleteOverride (n o : GoString)
  | upsert (b : Option CounterBody)
  | queryCounters (q : Option (Query Key))
  | setCounters (b : Option CounterBody)

/-- The number of an id; a string that is not the id of anything stands for `fresh`. -/
def numOf (fresh : Nat) (n : GoString) : Nat := if n ≠ [] ∧ n = idStr (n.length - 1) then n.length - 1 else fresh
/-- The rule with an id; an unknown id stands for one that has not been given out. -/
def ruleNum (s : Srv) (n : GoString) : Nat := numOf s.lim.rules.next n
/-- The override with an id, for the rule with number `r`. -/
def overrideNum (s : Srv) (r : Nat) (n : GoString) : Nat :=
  match rel s.lim.overrides (idStr r) with
  | some t => numOf t.next n
  | none => 0

/-- The answer to errors and to requests without a result: `ServerError` (pkg/models/api/common/errors/server_error.go) with its status. -/
def plainReply : Out Key → Reply
  | .ok => .done
  | .badRequest => .error 400
  | .notFound => .error 404
  | .conflict => .error 409
  | _ => .error 500
/-- rules_handler.go:38-41, overrides_handler.go:39-42: the decoded object with its new id. -/
def createdReply (kvs : KVs Key) (limit : Int) : Out Key → Reply
  | .created id => .created ⟨id, kvs, limit⟩
  | o => plainReply o
/-- rules_handler.go:109, overrides_handler.go:112-117, with the validation of the answer (server.go:89-96). -/
def oneReply (id : Nat) : Out Key → Reply
  | .one kvs limit => if (⟨id, kvs, limit⟩ : Entry Key).validate then .one ⟨id, kvs, limit⟩ else .error 500
  | o => plainReply o
/-- counters_handler.go:86, with the validation of the answer: counter.go:17-31, 75-81, counters.go:16-32. -/
def countersReply : Out Key → Reply
  | .counters l =>
    if l.all (fun c => !c.1.isEmpty && c.1.all (fun kv => decide (KeyOps.typ kv.2 ≤ DataType.maxWithoutAny))) then .counters l else .error 500
  | o => plainReply o
/-- The answer to a read. -/
def readReply : RAns Key → Reply
  | .found l => .list l
  | .notFound => .error 404
  | .internal => .error 500

/-- A request to the trees; a panic in it leaves no lock behind (nobody else waits: panics happen outside of the callbacks of exact finds, as in
`tsat.query`, threadsafe_query.go:87-133, or in GenerateStringPermutations, threadsafe_match.go:116-119). -/
def onTrees (s : Srv) (f : Out Key → Reply) : Option (State Key × Out Key) → Option Srv × Reply
  | none => (some s, .panicked)
  | some (st, o) => (some { s with lim := st }, f o)
/-- A read of the rules: as above. -/
def readRules (s : Srv) : Option (RAns Key) → Option Srv × Reply
  | none => (some s, .panicked)
  | some a => (some s, readReply a)
/-- A read of the overrides of a rule.  It happens in the callback of the exact find of the rule's id (rules_client_local.go:320-325, 351-356,
threadsafe_query.go:59) and in that of the find of the relation (btree_one_to_many/threadsafe_query.go, threadsafe_match.go:35-45): a panic leaves both
nodes read-locked. -/
def readOverridesOf (s : Srv) (rule : Nat) : Option (RAns Key) → Option Srv × Reply
  | none => (some { s with held := rule :: s.held }, .panicked)
  | some a => (some s, readReply a)
/-- A request that writes to the tree of rules or of relations: it may need a lock that is never released. -/
def writes (s : Srv) (e : Env) (k : Option Srv × Reply) : Option Srv × Reply := if !s.held.isEmpty && e.waits then (none, .stalls) else k

/-- The handlers: rules_handler.go:17-152, overrides_handler.go:17-160, counters_handler.go:18-110.  DeleteRule locks the node of the id for writing
(btree/threadsafe_delete.go:76-163), which waits for ever if that node was left read-locked.  `none`: the state is not followed any further. -/
def handle (s : Srv) (e : Env) : Req → Option Srv × Reply
  | .createRule none => (some s, .error 400)
  | .createRule (some b) =>
    if b.validateSpecOnly then
      match b.spec with
      | some (some kvs, some ⟨some l⟩) => writes s e (onTrees s (createdReply (kvsOf kvs) l) (createRule s.lim (kvsOf kvs) l))
      | _ => (some s, .panicked)
    else (some s, .error 400)
  | .queryRules none => (some s, .error 400)
  | .queryRules (some q) => if validQuery q then readRules s (queryRules s.lim q) else (some s, .error 400)
  | .matchRules none => (some s, .error 400)
  | .matchRules (some m) => if validMatch m then readRules s (matchRules s.lim e.ch m) else (some s, .error 400)
  | .getRule n => onTrees s (oneReply (ruleNum s n)) (getRule s.lim (ruleNum s n))
  | .updateRule _ none => (some s, .error 400)
  | .updateRule n (some p) =>
    if p.validate then
      match p.limit with
      | some l => onTrees s plainReply (updateRule s.lim (ruleNum s n) l)
      | none => (some s, .panicked)
    else (some s, .error 400)
  | .deleteRule n =>
    if ruleNum s n ∈ s.held then (none, .stalls) else writes s e (onTrees s plainReply (deleteRule s.lim e.ch (ruleNum s n)))
  | .createOverride _ none => (some s, .error 400)
  | .createOverride n (some b) =>
    if b.validateSpecOnly then
      match b.spec with
      | some (some kvs, some ⟨some l⟩) => writes s e (onTrees s (createdReply (kvsOf kvs) l) (createOverride s.lim (ruleNum s n) (kvsOf kvs) l))
      | _ => (some s, .panicked)
    else (some s, .error 400)
  | .queryOverrides _ none => (some s, .error 400)
  | .queryOverrides n (some q) =>
    if validQuery q then readOverridesOf s (ruleNum s n) (readQueryOverrides s.lim (ruleNum s n) q) else (some s, .error 400)
  | .matchOverrides _ none => (some s, .error 400)
  | .matchOverrides n (some m) =>
    if validMatch m then readOverridesOf s (ruleNum s n) (readMatchOverrides s.lim e.ch (ruleNum s n) m) else (some s, .error 400)
  | .getOverride n o =>
    onTrees s (oneReply (overrideNum s (ruleNum s n) o)) (getOverride s.lim (ruleNum s n) (overrideNum s (ruleNum s n) o))
  | .updateOverride _ _ none => (some s, .error 400)
  | .updateOverride n o (some p) =>
    if p.validate then
      match p.limit with
      | some l => onTrees s plainReply (updateOverride s.lim (ruleNum s n) (overrideNum s (ruleNum s n) o) l)
      | none => (some s, .panicked)
    else (some s, .error 400)
  | .deleteOverride n o => onTrees s plainReply (deleteOverride s.lim (ruleNum s n) (overrideNum s (ruleNum s n) o))
  | .upsert none => (some s, .error 400)
  | .upsert (some b) =>
    if b.validateSpecOnly then
      match b.spec with
      | some (some kvs, some (some c)) => onTrees s plainReply (upsert s.lim e.ch (kvsOf kvs) c)
      | _ => (some s, .panicked)
    else (some s, .error 400)
  | .queryCounters none => (some s, .error 400)
  | .queryCounters (some q) => if validQuery q then onTrees s countersReply (queryCounters s.lim q) else (some s, .error 400)
  | .setCounters none => (some s, .error 400)
  | .setCounters (some b) =>
    if b.validateSpecOnly then
      match b.spec with
      | some (some kvs, some (some c)) => onTrees s plainReply (setCounter s.lim (kvsOf kvs) c)
      | _ => (some s, .panicked)
    else (some s, .error 400)

/-- Requests, one after the other, until one waits for ever. -/
def handleAll (s : Srv) : List (Env × Req) → Option Srv × List Reply
  | [] => (some s, [])
  | (e, r) :: rs =>
    match handle s e r with
    | (none, o) => (none, [o])
    | (some s', o) => ((handleAll s' rs).1, o :: (handleAll s' rs).2)

end Willow.LimHttp
