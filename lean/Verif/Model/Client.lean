import Verif.Model.Requests
import Verif.Model.JsonString
/-
The Go client of willow (pkg/clients/willow_client), the URLs it builds, and the router of willow (internal/willow/api/v1/router).

Simplifications:
* The base URL of the client has no path, query or fragment, as in pkg/clients/client_config.go:12-14.
* Not in /repo: Go's net/url, net/http and http2, and github.com/DanLavine/urlrouter.  The router is taken to match the decoded path
  segment by segment, a parameter matching any segment that is not empty.
* The name of a queue in a body goes through JSON (Model/JsonString.lean).  Other bodies are decoded as they were sent (C03), and a body that is
  decoded as something else is decoded to what it has in common with it: nothing, except for acks and heartbeats.
* Nil pointers in the place of the argument of a call are left out, as is the context of a call.
-/
namespace Willow.Client
open Willow Willow.Assoc Willow.Spec Willow.Queue Willow.Queues Willow.Requests

/-! ### URLs -/

/-- strings.Cut: the part before the first `b`, and the part after it if there is one. -/
def cut (b : UInt8) : GoString → GoString × Option GoString
  | [] => ([], none)
  | c :: cs => if c = b then ([], some cs) else (c :: (cut b cs).1, (cut b cs).2)

/-- net/url `stringContainsCTLByte`. -/
def isCtl (b : UInt8) : Bool := decide (b.toNat < 32) || b == 127

/-- net/url `unescape`: two hexadecimal digits after each `%`. -/
def unescape : GoString → Option GoString
  | [] => some []
  | [c] => if c = 37 then none else some [c]
  | [c, d] => if c = 37 ∨ d = 37 then none else some [c, d]
  | c :: a :: b :: rest =>
    if c = 37 then
      match hexVal a, hexVal b with
      | some x, some y => (unescape rest).map (UInt8.ofNat (16 * x + y) :: ·)
      | _, _ => none
    else (unescape (a :: b :: rest)).map (c :: ·)

/-- net/url `shouldEscape` for paths: all but letters, digits and `-_.~$&+,/:;=@`. -/
def shouldEscape (c : UInt8) : Bool :=
  !(decide (48 ≤ c.toNat ∧ c.toNat ≤ 57) || decide (65 ≤ c.toNat ∧ c.toNat ≤ 90) || decide (97 ≤ c.toNat ∧ c.toNat ≤ 122) ||
    c == 45 || c == 95 || c == 46 || c == 126 || c == 36 || c == 38 || c == 43 || c == 44 || c == 47 || c == 58 || c == 59 || c == 61 || c == 64)

/-- An upper-case hexadecimal digit. -/
def upperHex (n : Nat) : UInt8 := if n < 10 then UInt8.ofNat (48 + n) else UInt8.ofNat (55 + n)
/-- net/url `escape` of one byte. -/
def escapeByte (c : UInt8) : GoString := if shouldEscape c then [37, upperHex (c.toNat / 16), upperHex (c.toNat % 16)] else [c]
/-- net/url `escape`. -/
def escape (s : GoString) : GoString := s.flatMap escapeByte

/-- net/url `validEncoded` for paths: `!$&'()*+,;=:@[]%` and what need not be escaped. -/
def validEncoded (s : GoString) : Bool :=
  s.all (fun c => c == 33 || c == 36 || c == 38 || c == 39 || c == 40 || c == 41 || c == 42 || c == 43 || c == 44 || c == 59 || c == 61 ||
    c == 58 || c == 64 || c == 91 || c == 93 || c == 37 || !shouldEscape c)

/-- net/url `Parse` of what follows the host: fragment, control bytes, query, path.  The undecoded path, the path and the query. -/
def parse (url : GoString) : Option (GoString × GoString × Option GoString) :=
  if (cut 35 url).1.any isCtl then none
  else if (unescape ((cut 35 url).2.getD [])).isNone then none
  else (unescape (cut 63 (cut 35 url).1).1).map (fun path => ((cut 63 (cut 35 url).1).1, path, (cut 63 (cut 35 url).1).2))

/-- net/url `EscapedPath`: what is sent as the path. -/
def escapedPath (raw path : GoString) : GoString := if validEncoded raw then raw else escape path
/-- net/url `RequestURI`; the fragment is not sent. -/
def requestURI (raw path : GoString) : Option GoString → GoString
  | none => escapedPath raw path
  | some q => escapedPath raw path ++ 63 :: q

/-- net/http `readRequest`, http2 `newWriterAndRequest`: the path of the request; a space in the request line of HTTP/1.1 is an error.  Clients use
HTTP/2 if they have a CA file (pkg/clients/http_client.go:11-28). -/
def serverPath (h2 : Bool) (uri : GoString) : Option GoString := if !h2 && uri.any (· == 32) then none else unescape (cut 63 uri).1

/-- The path that the service sees; `none`: the client or the server rejects the URL. -/
def arrives (h2 : Bool) (url : GoString) : Option GoString :=
  match parse url with
  | none => none
  | some (raw, path, q) => serverPath h2 (requestURI raw path q)

/-! ### The router -/

/-- The segments of a path. -/
def segments : GoString → List GoString
  | [] => [[]]
  | c :: cs => if c = 47 then [] :: segments cs else
    match segments cs with
    | [] => [[c]]
    | s :: ss => (c :: s) :: ss

/-- HTTP methods. -/
inductive Method
  | get | put | post | delete
deriving DecidableEq, Repr

/-- internal/willow/api/v1/handlers/handler.go:9-29: the handlers, with the parameter queue_name. -/
inductive Handler
  | create | list
  | get (n : GoString) | update (n : GoString) | delete (n : GoString)
  | channelQuery (n : GoString) | channelDelete (n : GoString)
  | enqueue (n : GoString) | dequeue (n : GoString) | ack (n : GoString) | heartbeat (n : GoString)
deriving DecidableEq, Repr

/-- "v1" -/
def sV1 : GoString := str ['v', '1']
/-- "queues" -/
def sQueues : GoString := str ['q', 'u', 'e', 'u', 'e', 's']
/-- "channels" -/
def sChannels : GoString := str ['c', 'h', 'a', 'n', 'n', 'e', 'l', 's']
/-- "items" -/
def sItems : GoString := str ['i', 't', 'e', 'm', 's']
/-- "ack" -/
def sAck : GoString := str ['a', 'c', 'k']
/-- "heartbeat" -/
def sHeartbeat : GoString := str ['h', 'e', 'a', 'r', 't', 'b', 'e', 'a', 't']

/-- willow_url_router.go:39-41: the routes of one queue. -/
def routeQueue (n : GoString) : Method → Option Handler
  | .get => some (.get n)
  | .put => some (.update n)
  | .delete => some (.delete n)
  | .post => none
/-- willow_url_router.go:45-46. -/
def routeChannels (n : GoString) : Method → Option Handler
  | .get => some (.channelQuery n)
  | .delete => some (.channelDelete n)
  | _ => none
/-- willow_url_router.go:50-51. -/
def routeItems (n : GoString) : Method → Option Handler
  | .post => some (.enqueue n)
  | .get => some (.dequeue n)
  | _ => none
/-- willow_url_router.go:52-53. -/
def routeItem (n op : GoString) (m : Method) : Option Handler :=
  if m = .post ∧ op = sAck then some (.ack n) else if m = .post ∧ op = sHeartbeat then some (.heartbeat n) else none
/-- willow_url_router.go:39-53: the routes below /v1/queues/:queue_name. -/
def routeBelow (m : Method) (n : GoString) : List GoString → Option Handler
  | [] => routeQueue n m
  | [a] => if a = sChannels then routeChannels n m else none
  | [a, b] => if a = sChannels ∧ b = sItems then routeItems n m else none
  | [a, b, c] => if a = sChannels ∧ b = sItems then routeItem n c m else none
  | _ => none
/-- willow_url_router.go:36-37: /v1/queues. -/
def routeAll : Method → Option Handler
  | .post => some .create
  | .get => some .list
  | _ => none
/-- willow_url_router.go:36-53. -/
def route (m : Method) (path : GoString) : Option Handler :=
  match segments path with
  | [] :: v :: q :: rest =>
    if v = sV1 ∧ q = sQueues then
      match rest with
      | [] => routeAll m
      | n :: below => if n = [] then none else routeBelow m n below
    else none
  | _ => none

/-! ### Calls -/

/-- What a request carries. -/
inductive Body
  | empty
  | queue (b : QueueBody)
  | props (p : QueueProps)
  | query (q : Query Key)
  | item (b : ItemBody)
  | kvs (l : RawKVs)
  | ref (r : ItemRef)

/-- pkg/clients/willow_client/willow_client.go:21-45, item.go:168-214 `ACK`, item.go:61-137 the heartbeats. -/
inductive Call
  | createQueue (b : QueueBody)
  | listQueues
  | getQueue (n : GoString) (q : Query Key)
  | updateQueue (n : GoString) (p : QueueProps)
  | deleteQueue (n : GoString)
  | enqueue (n : GoString) (b : ItemBody)
  | dequeue (n : GoString) (q : Query Key)
  | deleteChannel (n : GoString) (kvs : RawKVs)
  | ack (n : GoString) (r : ItemRef)
  | heartbeat (n : GoString) (r : ItemRef)

/-- "/v1/queues" -/
def base : GoString := str ['/', 'v', '1', '/', 'q', 'u', 'e', 'u', 'e', 's']
/-- "/channels" -/
def pChannels : GoString := 47 :: sChannels
/-- "/channels/items" -/
def pItems : GoString := pChannels ++ 47 :: sItems
/-- `fmt.Sprintf("%s/v1/queues/%s…", url, queueName)` (queue.go:118, 168, 205, channel.go:36, 82, 135, item.go:91-95, 181-185). -/
def urlOf (n below : GoString) : GoString := base ++ 47 :: (n ++ below)

/-- The queue that is decoded from what json.Marshal makes of `b`: only the name goes through JSON strings. -/
def viaJson (b : QueueBody) : QueueBody :=
  match b.spec with
  | some ⟨some (some n), p⟩ => ⟨some ⟨some (jsonUnquote (jsonQuote n)), p⟩, b.state⟩
  | _ => b

/-- What a call sends; `none`: the client rejects it (pkg/models/api/client.go:9-23, queue.go:27-33, 69, 112-118, 162-168, 205, channel.go:30-36, 76-82,
125-135, item.go:82-95, 171-185). -/
def request : Call → Option (Method × GoString × Body)
  | .createQueue b => if b.validateSpecOnly then some (.post, base, .queue (viaJson b)) else none
  | .listQueues => some (.get, base, .empty)
  | .getQueue n q => if validQuery q then some (.get, urlOf n [], .query q) else none
  | .updateQueue n p => if p.validate then some (.put, urlOf n [], .props p) else none
  | .deleteQueue n => some (.delete, urlOf n [], .empty)
  | .enqueue n b => if b.validateSpecOnly then some (.post, urlOf n pItems, .item b) else none
  | .dequeue n q => if validQuery q then some (.get, urlOf n pItems, .query q) else none
  | .deleteChannel n kvs => if validKVs false kvs then some (.delete, urlOf n pChannels, .kvs kvs) else none
  | .ack n r => if r.validate then some (.post, urlOf n (pItems ++ 47 :: sAck), .ref r) else none
  | .heartbeat n r => if r.validate then some (.post, urlOf n (pItems ++ 47 :: sHeartbeat), .ref r) else none

/-- HTTP/2 or HTTP/1.1, and what the request meets at the service: see Requests.Req. -/
structure Env where
  h2 : Bool
  upC : Bool
  upQ : Bool
  up : Bool
  admit : Bool
  pick : Nat
  res : AckRes
  found : Bool

/-- What a handler decodes from a body (queue_handler.go, channel_handler.go, item_handler.go): an item is no ack or heartbeat and has
neither ID nor key-values for one; an ack has no Spec; an empty body and key-values that are not there. -/
def decoded (e : Env) : Handler → Body → Requests.Req
  | .create, .queue b => .create (some b) e.up
  | .create, _ => .create none e.up
  | .list, _ => .list
  | .get n, _ => .get n
  | .update n, .props p => .update n (some p) e.upQ e.up
  | .update n, _ => .update n none e.upQ e.up
  | .delete n, _ => .delete n e.upC e.upQ e.up
  | .channelQuery n, .query q => .channelQuery n (some q)
  | .channelQuery n, _ => .channelQuery n none
  | .channelDelete n, .kvs l => .channelDelete n l true e.up
  | .channelDelete n, _ => .channelDelete n [] false e.up
  | .enqueue n, .item b => .enqueue n (some b) e.admit
  | .enqueue n, _ => .enqueue n (some ⟨none, false⟩) e.admit
  | .dequeue n, .query q => .dequeue n (some q) e.pick e.admit
  | .dequeue n, _ => .dequeue n none e.pick e.admit
  | .ack n, .ref r => .ack n (some r) e.res
  | .ack n, _ => .ack n (some ⟨[], []⟩) e.res
  | .heartbeat n, .ref r => .heartbeat n (some r) e.found
  | .heartbeat n, _ => .heartbeat n (some ⟨[], []⟩) e.found

/-- Whether the request of a call has a Content-Type header: pkg/clients/http_request.go:18-37 sets one for all calls (queue.go:37, 73, 122, 172, 209,
channel.go:40, 86, 139, item.go:189), but the request of a heartbeat is sent as it was made (item.go:91-101). -/
def contentType : Call → Bool
  | .heartbeat .. => false
  | _ => true

/-- The handler that a request reaches. -/
def reached (h2 : Bool) (m : Method) (url : GoString) : Option Handler :=
  match arrives h2 url with
  | none => none
  | some path => route m path

/-- The request to the service that a call leads to, if any: internal/middleware/encoder.go:10-31 keeps requests without a Content-Type header from
the handlers. -/
def delivered (e : Env) (c : Call) : Option Requests.Req :=
  match request c with
  | none => none
  | some (m, url, body) => if contentType c then (reached e.h2 m url).map (fun (h : Handler) => decoded e h body) else none

/-! ### Results -/

/-- What comes with a status: nothing, a JSON error, another text, or what was asked for. -/
inductive Payload
  | none | error | text
  | queue (q : GoString × Int)
  | queues (l : List (GoString × Int))
  | item (timeout : Int)
  | channels (n : Nat)

/-- What the client gets: the connection ends, or a status. -/
inductive Resp
  | closed
  | http (code : Nat) (p : Payload)

/-- The status for success (queue_handler.go:34, 50, 69, 92, 107, channel_handler.go:38, 64, item_handler.go:33, 56, 83, 105). -/
def okStatus : Handler → Nat
  | .create | .enqueue _ => 201
  | .delete _ | .channelDelete _ => 204
  | _ => 200

/-- The response for a reply (pkg/models/api/server.go:80-116; the statuses of errors as in Requests.Reply). -/
def respond (h : Handler) : Reply → Resp
  | .answer .ok => .http (okStatus h) .none
  | .answer .notFound => .http 404 .error
  | .answer .conflict => .http 409 .error
  | .answer .internal => .http 500 .error
  | .answer (.one q) => .http 200 (.queue q)
  | .answer (.all l) => .http 200 (.queues l)
  | .rejected => .http 400 .error
  | .item t => .http 200 (.item t)
  | .channels n => .http 200 (.channels n)
  | .panicked | .died => .closed

/-- What a call returns: no error, with what was asked for; the error of the service; or another error. -/
inductive Result
  | ok
  | queue (q : GoString × Int)
  | queues (l : List (GoString × Int))
  | item (timeout : Int)
  | apiError (code : Nat)
  | failed
deriving DecidableEq, Repr

/-- The status that a call takes for success (queue.go:46, 82, 131, 181, 218, channel.go:49, 95, 148, item.go:198, 115). -/
def wants : Call → Nat
  | .createQueue _ | .enqueue .. => 201
  | .deleteQueue _ | .deleteChannel .. => 204
  | _ => 200
/-- The statuses of errors of the service that a call knows (queue.go:48, 89, 139, 183, 220, channel.go:51, 102, 150, item.go:201, 118). -/
def knows : Call → List Nat
  | .createQueue _ => [400, 409, 500]
  | .listQueues => [500]
  | .deleteQueue _ => [404, 409, 500]
  | .heartbeat .. => [400, 409, 500]
  | _ => [400, 404, 409, 500]
/-- The payload of a success, decoded and validated (client.go:33-46); anything else does not validate as what was asked for. -/
def payload : Call → Payload → Result
  | .listQueues, .queues l => .queues l
  | .listQueues, _ => .failed
  | .getQueue .., .queue q => .queue q
  | .getQueue .., _ => .failed
  | .dequeue .., .item t => .item t
  | .dequeue .., _ => .failed
  | _, _ => .ok
/-- The status is none of those that a call knows: an error, except for acks (item.go:208-212). -/
def unknown : Call → Result
  | .ack .. => .ok
  | _ => .failed
/-- The body of an error, decoded and validated (client.go:33-46). -/
def errorOf (code : Nat) : Payload → Result
  | .error => .apiError code
  | _ => .failed
/-- The result of a call. -/
def resultOf (c : Call) : Resp → Result
  | .closed => .failed
  | .http code p => if code = wants c then payload c p else if code ∈ knows c then errorOf code p else unknown c

/-- A call: the state after it, and its result.  A request without a route is answered 404 by the router, one without a Content-Type header 400
by the middleware (internal/middleware/encoder.go:14-21); a URL that the client or the server rejects is an error. -/
def call (s : Requests.St) (e : Env) (c : Call) : Option Requests.St × Result :=
  match request c with
  | none => (some s, .failed)
  | some (m, url, body) =>
    match arrives e.h2 url with
    | none => (some s, .failed)
    | some path =>
      match route m path with
      | none => (some s, resultOf c (.http 404 .text))
      | some h =>
        if contentType c then ((handle s (decoded e h body)).1, resultOf c (respond h (handle s (decoded e h body)).2))
        else (some s, resultOf c (.http 400 .error))

/-- Calls, one after the other. -/
def calls (s : Requests.St) (e : Env) : List Call → Option Requests.St × List Result
  | [] => (some s, [])
  | c :: cs => match call s e c with
    | (none, r) => (none, [r])
    | (some s', r) => ((calls s' e cs).1, r :: (calls s' e cs).2)

end Willow.Client
