import Verif.Model.LimiterHttp
import Verif.Model.Client
/-
The Go client of the limiter (pkg/clients/limiter_client), the URLs it builds, and the router of the limiter (internal/limiter/api/v1/router).

Simplifications, besides those of Model/Client.lean:
* The router looks up the routes of the method of a request; a route with `query` or `match` in a place wins over one with a parameter there.
* Keys go through JSON (Model/JsonString.lean), and empty lists in queries are left out.  A list of key-values is in the order in which json.Marshal
  writes the map.  Values are decoded as they were sent (C03), as are answers: the keys in them came out of JSON.
-/
namespace Willow.LimClient
open Willow Willow.Assoc Willow.Spec Willow.Limiter Willow.Requests Willow.Queue Willow.Client Willow.LimHttp

/-! ### The router -/

/-- "limiter" -/
def sLimiter : GoString := str ['l', 'i', 'm', 'i', 't', 'e', 'r']
/-- "rules" -/
def sRules : GoString := str ['r', 'u', 'l', 'e', 's']
/-- "overrides" -/
def sOverrides : GoString := str ['o', 'v', 'e', 'r', 'r', 'i', 'd', 'e', 's']
/-- "counters" -/
def sCounters : GoString := str ['c', 'o', 'u', 'n', 't', 'e', 'r', 's']
/-- "query" -/
def sQuery : GoString := str ['q', 'u', 'e', 'r', 'y']
/-- "match" -/
def sMatch : GoString := str ['m', 'a', 't', 'c', 'h']
/-- "set" -/
def sSet : GoString := str ['s', 'e', 't']

/-- internal/limiter/api/v1/handlers: the handlers, with the parameters rule_id and override_id. -/
inductive Handler
  | createRule | queryRules | matchRules
  | getRule (n : GoString) | updateRule (n : GoString) | deleteRule (n : GoString)
  | createOverride (n : GoString) | queryOverrides (n : GoString) | matchOverrides (n : GoString)
  | getOverride (n o : GoString) | updateOverride (n o : GoString) | deleteOverride (n o : GoString)
  | upsert | queryCounters | setCounters
deriving DecidableEq, Repr

/-- url_router.go:38-42: below /v1/limiter/rules. -/
def routeRule (n : GoString) : Client.Method → Option Handler
  | .get => if n = sQuery then some .queryRules else if n = sMatch then some .matchRules else some (.getRule n)
  | .put => some (.updateRule n)
  | .delete => some (.deleteRule n)
  | .post => none
/-- url_router.go:46-50: below /v1/limiter/rules/:rule_id/overrides. -/
def routeOverride (n o : GoString) : Client.Method → Option Handler
  | .get => if o = sQuery then some (.queryOverrides n) else if o = sMatch then some (.matchOverrides n) else some (.getOverride n o)
  | .put => some (.updateOverride n o)
  | .delete => some (.deleteOverride n o)
  | .post => none
/-- url_router.go:37-50: /v1/limiter/rules and below. -/
def routeRules (m : Client.Method) : List GoString → Option Handler
  | [] => if m = .post then some .createRule else none
  | [n] => if n = [] then none else routeRule n m
  | [n, x] => if n = [] ∨ x ≠ sOverrides ∨ m ≠ .post then none else some (.createOverride n)
  | [n, x, o] => if n = [] ∨ x ≠ sOverrides ∨ o = [] then none else routeOverride n o m
  | _ => none
/-- url_router.go:53-56: /v1/limiter/counters and below. -/
def routeCounters (m : Client.Method) : List GoString → Option Handler
  | [] => if m = .put then some .upsert else none
  | [x] => if m = .get ∧ x = sQuery then some .queryCounters else if m = .put ∧ x = sSet then some .setCounters else none
  | _ => none
/-- url_router.go:37-56. -/
def routeSegs (m : Client.Method) : List GoString → Option Handler
  | v :: l :: k :: rest =>
    if v = sV1 ∧ l = sLimiter then if k = sRules then routeRules m rest else if k = sCounters then routeCounters m rest else none else none
  | _ => none
/-- The route of a path: it starts with a slash. -/
def route (m : Client.Method) (p : GoString) : Option Handler :=
  match segments p with
  | [] :: l => routeSegs m l
  | _ => none

/-- The path of a handler: rule.go:33, 76, 124, 172, 221, 258, override.go:36, 85, 134, 179, 230, 268, counter.go:36, 80, 128. -/
def Handler.segs : Handler → List GoString
  | .createRule => [sV1, sLimiter, sRules]
  | .queryRules => [sV1, sLimiter, sRules, sQuery]
  | .matchRules => [sV1, sLimiter, sRules, sMatch]
  | .getRule n | .updateRule n | .deleteRule n => [sV1, sLimiter, sRules, n]
  | .createOverride n => [sV1, sLimiter, sRules, n, sOverrides]
  | .queryOverrides n => [sV1, sLimiter, sRules, n, sOverrides, sQuery]
  | .matchOverrides n => [sV1, sLimiter, sRules, n, sOverrides, sMatch]
  | .getOverride n o | .updateOverride n o | .deleteOverride n o => [sV1, sLimiter, sRules, n, sOverrides, o]
  | .upsert => [sV1, sLimiter, sCounters]
  | .queryCounters => [sV1, sLimiter, sCounters, sQuery]
  | .setCounters => [sV1, sLimiter, sCounters, sSet]

/-- The method of a handler: the same lines. -/
def Handler.method : Handler → Client.Method
  | .createRule | .createOverride _ => .post
  | .updateRule _ | .updateOverride _ _ | .upsert | .setCounters => .put
  | .deleteRule _ | .deleteOverride _ _ => .delete
  | _ => .get

/-- `fmt.Sprintf("%s/v1/limiter/…", url, …)`: the strings are put between slashes as they are. -/
def pathOf (segs : List GoString) : GoString := segs.flatMap (fun x => 47 :: x)

/-! ### Calls -/

/-- pkg/clients/limiter_client/limiter_client.go:17-77. -/
inductive Call
  | createRule (b : LimitBody)
  | queryRules (q : Query Key)
  | matchRules (m : MatchQuery Key)
  | getRule (n : GoString)
  | updateRule (n : GoString) (p : LimitProps)
  | deleteRule (n : GoString)
  | createOverride (n : GoString) (b : LimitBody)
  | queryOverrides (n : GoString) (q : Query Key)
  | matchOverrides (n : GoString) (m : MatchQuery Key)
  | getOverride (n o : GoString)
  | updateOverride (n o : GoString) (p : LimitProps)
  | deleteOverride (n o : GoString)
  | updateCounter (b : CounterBody)
  | queryCounters (q : Query Key)
  | setCounters (b : CounterBody)

/-- What a request carries. -/
inductive Body
  | empty
  | limit (b : LimitBody)
  | props (p : LimitProps)
  | query (q : Query Key)
  | mtch (m : MatchQuery Key)
  | counter (b : CounterBody)

/-- A key that went through JSON. -/
def keyJson (k : GoString) : GoString := (jsonUnquote (jsonQuote k)).getD []
/-- encoding/json decodes into a map: the last of equal keys stays. -/
def lastWins {A : Type} : List (GoString × A) → List (GoString × A)
  | [] => []
  | x :: l => if l.any (fun y => y.1 == x.1) then lastWins l else x :: lastWins l
/-- Key-values that went through JSON. -/
def kvsJson {A : Type} (kvs : List (GoString × A)) : List (GoString × A) := lastWins (kvs.map (fun kv => (keyJson kv.1, kv.2)))
/-- A rule or override that went through JSON. -/
def limitJson (b : LimitBody) : LimitBody :=
  match b.spec with
  | some (some kvs, p) => ⟨some (some (kvsJson kvs), p), b.state⟩
  | _ => b
/-- A counter that went through JSON. -/
def counterJson (b : CounterBody) : CounterBody :=
  match b.spec with
  | some (some kvs, p) => ⟨some (some (kvsJson kvs), p)⟩
  | _ => b

/-- A selection that went through JSON: query_associated_action/selection.go, `KeyValues` is a map. -/
def selJson (x : Selection Key) : Selection Key := { x with kvs := kvsJson x.kvs }
mutual
/-- A query that went through JSON: `omitempty` leaves out empty lists, which are then nil (associated_action_query.go:19-23). -/
def queryJson : Query Key → Query Key
  | .mk sel or and nl => .mk (sel.map selJson) (queriesJson or) (queriesJson and) (nl || or.isEmpty && and.isEmpty)
/-- The same for a list. -/
def queriesJson : List (Query Key) → List (Query Key)
  | [] => []
  | q :: qs => queryJson q :: queriesJson qs
end
/-- A match that went through JSON: `KeyValues` is a map (match_query.go:12-26). -/
def matchJson (m : MatchQuery Key) : MatchQuery Key := { m with kvs := kvsJson m.kvs }

/-- The handler that a call is meant for. -/
def Call.handler : Call → Handler
  | .createRule _ => .createRule
  | .queryRules _ => .queryRules
  | .matchRules _ => .matchRules
  | .getRule n => .getRule n
  | .updateRule n _ => .updateRule n
  | .deleteRule n => .deleteRule n
  | .createOverride n _ => .createOverride n
  | .queryOverrides n _ => .queryOverrides n
  | .matchOverrides n _ => .matchOverrides n
  | .getOverride n o => .getOverride n o
  | .updateOverride n o _ => .updateOverride n o
  | .deleteOverride n o => .deleteOverride n o
  | .updateCounter _ => .upsert
  | .queryCounters _ => .queryCounters
  | .setCounters _ => .setCounters

/-- The body of a call; `none`: the client rejects it (client.go:9-23, rule.go:27-30, 118-121, 166-169, 215-218, override.go:30-33, 79-82, 128-131,
224-227, counter.go:30-33, 74-77, 122-125).  CreateRule validates the whole rule, CreateOverride and the counters only the Spec. -/
def bodyOf : Call → Option Body
  | .createRule b => if b.validateRule then some (.limit (limitJson b)) else none
  | .createOverride _ b => if b.validateSpecOnly then some (.limit (limitJson b)) else none
  | .queryRules q | .queryOverrides _ q | .queryCounters q => if validQuery q then some (.query (queryJson q)) else none
  | .matchRules m | .matchOverrides _ m => if validMatch m then some (.mtch (matchJson m)) else none
  | .updateRule _ p | .updateOverride _ _ p => if p.validate then some (.props p) else none
  | .updateCounter b | .setCounters b => if b.validateSpecOnly then some (.counter (counterJson b)) else none
  | .getRule _ | .deleteRule _ | .getOverride _ _ | .deleteOverride _ _ => some .empty

/-- A rule or override as decoded; other bodies have no Spec. -/
def asLimit : Body → Option LimitBody
  | .limit b => some b
  | .empty => none
  | _ => some ⟨none, none⟩
/-- Properties as decoded; other bodies have no Limit. -/
def asProps : Body → Option LimitProps
  | .props p => some p
  | .empty => none
  | _ => some ⟨none⟩
/-- A counter as decoded; other bodies have no Spec for counters. -/
def asCounter : Body → Option CounterBody
  | .counter b => some b
  | .empty => none
  | _ => some ⟨none⟩
/-- A query as decoded: associated_action_query.go:13-23.  Another body has none of its fields, and selects everything. -/
def asQuery : Body → Option (Query Key)
  | .query q => some q
  | .empty => none
  | _ => some (.mk none [] [] true)
/-- A match as decoded: match_query.go:12-26.  Another body has no key-values. -/
def asMatch : Body → Option (MatchQuery Key)
  | .mtch m => some m
  | .empty => none
  | _ => some { kvs := [], min := none, max := none }

/-- What a handler decodes from a body: rules_handler.go:25, 53, 78, 121, overrides_handler.go:25, 54, 80, 130, counters_handler.go:26, 74, 97. -/
def decoded : Handler → Body → LimHttp.Req
  | .createRule, b => .createRule (asLimit b)
  | .queryRules, b => .queryRules (asQuery b)
  | .matchRules, b => .matchRules (asMatch b)
  | .getRule n, _ => .getRule n
  | .updateRule n, b => .updateRule n (asProps b)
  | .deleteRule n, _ => .deleteRule n
  | .createOverride n, b => .createOverride n (asLimit b)
  | .queryOverrides n, b => .queryOverrides n (asQuery b)
  | .matchOverrides n, b => .matchOverrides n (asMatch b)
  | .getOverride n o, _ => .getOverride n o
  | .updateOverride n o, b => .updateOverride n o (asProps b)
  | .deleteOverride n o, _ => .deleteOverride n o
  | .upsert, b => .upsert (asCounter b)
  | .queryCounters, b => .queryCounters (asQuery b)
  | .setCounters, b => .setCounters (asCounter b)

/-- The handler that a request reaches. -/
def reached (h2 : Bool) (m : Client.Method) (url : GoString) : Option Handler :=
  match arrives h2 url with
  | none => none
  | some p => route m p

/-- The request to the service that a call leads to, if any. -/
def delivered (h2 : Bool) (c : Call) : Option LimHttp.Req :=
  match bodyOf c with
  | none => none
  | some b => (reached h2 c.handler.method (pathOf c.handler.segs)).map (fun (h : Handler) => decoded h b)

/-! ### Results -/

/-- What comes with a status. -/
inductive Payload
  | none | error | text
  | one (e : Entry Key)
  | list (l : List (Entry Key))
  | counters (l : List (KVs Key × Int))

/-- What the client gets. -/
inductive Resp
  | closed
  | waits
  | http (code : Nat) (p : Payload)

/-- The status of a success without a body: rules_handler.go:135, 151, overrides_handler.go:143, 159, counters_handler.go:53, 61, 109. -/
def okStatus : Handler → Nat
  | .deleteRule _ | .deleteOverride _ _ => 204
  | _ => 200

/-- The response for a reply (server.go:69-101). -/
def respond (h : Handler) : LimHttp.Reply → Resp
  | .done => .http (okStatus h) .none
  | .created e => .http 201 (.one e)
  | .one e => .http 200 (.one e)
  | .list l => .http 200 (.list l)
  | .counters l => .http 200 (.counters l)
  | .error c => .http c .error
  | .panicked => .closed
  | .stalls => .waits

/-- What a call returns: no error, with what was asked for; the error of the service; another error; or nothing, ever. -/
inductive Result
  | ok
  | one (e : Entry Key)
  | list (l : List (Entry Key))
  | counters (l : List (KVs Key × Int))
  | apiError (code : Nat)
  | failed
  | never

/-- The status that a call takes for success: rule.go:46, 89, 137, 185, 234, 271, override.go:49, 98, 147, 192, 243, 281, counter.go:49, 93, 141. -/
def wants : Call → Nat
  | .createRule _ | .createOverride .. => 201
  | .deleteRule _ | .deleteOverride .. => 204
  | _ => 200
/-- The statuses of errors that a call knows: rule.go:53, 96, 144, 192, 236, 273, override.go:56, 105, 154, 199, 245, 283, counter.go:52, 100, 144. -/
def knows : Call → List Nat
  | .createRule _ => [400, 409, 500]
  | .getRule _ | .updateRule .. | .createOverride .. | .updateOverride .. => [400, 404, 409, 500]
  | .queryRules _ | .matchRules _ | .queryCounters _ | .setCounters _ => [400, 500]
  | .deleteRule _ => [409, 500]
  | .queryOverrides .. | .matchOverrides .. | .updateCounter _ => [400, 409, 500]
  | .getOverride .. | .deleteOverride .. => [404, 409, 500]
/-- The payload of a success, decoded and validated (client.go:33-46): rules and overrides look the same; anything else is an error. -/
def payload : Call → Payload → Result
  | .createRule _, .one e | .createOverride .., .one e | .getRule _, .one e | .getOverride .., .one e => .one e
  | .createRule _, _ | .createOverride .., _ | .getRule _, _ | .getOverride .., _ => .failed
  | .queryRules _, .list l | .matchRules _, .list l | .queryOverrides .., .list l | .matchOverrides .., .list l => .list l
  | .queryRules _, _ | .matchRules _, _ | .queryOverrides .., _ | .matchOverrides .., _ => .failed
  | .queryCounters _, .counters l => .counters l
  | .queryCounters _, _ => .failed
  | _, _ => .ok
/-- The body of an error, decoded and validated (client.go:33-46). -/
def errorOf (code : Nat) : Payload → Result
  | .error => .apiError code
  | _ => .failed
/-- The result of a call: rule.go:44-62, 87-105, 135-153, 183-201, 232-245, 269-282, override.go:47-65, 96-114, 145-163, 190-208, 241-254, 279-292,
counter.go:47-61, 91-109, 139-153. -/
def resultOf (c : Call) : Resp → Result
  | .closed => .failed
  | .waits => .never
  | .http code p => if code = wants c then payload c p else if code ∈ knows c then errorOf code p else .failed

/-- A call: the state after it, and its result.  A request without a route is answered 404 by the router. -/
def call (s : Srv) (h2 : Bool) (e : LimHttp.Env) (c : Call) : Option Srv × Result :=
  match bodyOf c with
  | none => (some s, .failed)
  | some b =>
    match arrives h2 (pathOf c.handler.segs) with
    | none => (some s, .failed)
    | some p =>
      match route c.handler.method p with
      | none => (some s, resultOf c (.http 404 .text))
      | some h => ((LimHttp.handle s e (decoded h b)).1, resultOf c (respond h (LimHttp.handle s e (decoded h b)).2))

/-- Calls, one after the other. -/
def calls (s : Srv) (h2 : Bool) (e : LimHttp.Env) : List Call → Option Srv × List Result
  | [] => (some s, [])
  | c :: cs => match call s h2 e c with
    | (none, r) => (none, [r])
    | (some s', r) => ((calls s' h2 e cs).1, r :: (calls s' h2 e cs).2)

end Willow.LimClient
