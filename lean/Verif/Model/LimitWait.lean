import Verif.Model.LimiterClient
import Verif.Model.Queue
/-
What a channel does after the limiter refused to count an item of it as running: memory_queue_channel.go:169-325 (`Execute`).  It asks the limiter
which rules and overrides apply and how far they are used, sleeps and asks again as long as one of them is reached, and offers the item again
as soon as none is.  The limiter serves other requests between any two of its calls.

Simplifications:
* A list of key-values is in the order in which Go ranges over the map (rules and overrides come with theirs).
* The end of the channel and of the service, which are only looked at while it sleeps (309-316), are left out: the loop ends.
* `panic` in this goroutine ends the whole process (`crashed`).
-/
namespace Willow.LimitWait
open Willow Willow.Assoc Willow.Spec Willow.Limiter Willow.Requests Willow.LimHttp Willow.LimClient

/-- memory_queue_channel.go:216-233, 262-280: the query for the counters of a rule or override. -/
def limitQuery (pat : KVs Key) : Query Key :=
  .mk (some { kvs := pat.map (fun kv => (kv.1, ⟨kv.2, .eq, ⟨KeyOps.typ kv.2, KeyOps.typ kv.2⟩⟩)) }) [] [] true

/-- Where the goroutine is. -/
inductive Pos
  /-- before the call of MatchRules (190) -/
  | rules
  /-- before the call of MatchOverrides for a rule (198), with the rules after it -/
  | overrides (r : Entry Key) (rest : List (Entry Key))
  /-- before the call of QueryCounters for a rule or an override (235, 282), with the overrides after it, the rules after its rule and `underLimit` -/
  | counters (e : Entry Key) (es rest : List (Entry Key)) (under : Bool)
  /-- waiting for five seconds (309-316) -/
  | sleep
  /-- out of the loop: the item is offered again (304-306, 153-169) -/
  | offer
  /-- `panic(err)` (191-193, 199-201, 236-238, 283-285) -/
  | crashed
  /-- a call that never returns -/
  | stuck

/-- The call that is made next; `kvs` are the key-values that were refused (177-183). -/
def ask (kvs : KVs Key) : Pos → Option LimClient.Call
  | .rules => some (.matchRules (anyMatchQuery kvs))
  | .overrides r _ => some (.matchOverrides (idStr r.id) (anyMatchQuery kvs))
  | .counters e _ _ _ => some (.queryCounters (limitQuery e.kvs))
  | _ => none

/-- memory_queue_channel.go:197, 304-306: the next rule, or the end of the loop over the rules. -/
def nextRule : List (Entry Key) → Pos
  | [] => .offer
  | r :: rest => .overrides r rest

/-- memory_queue_channel.go:207-214, 251-261, 298-301: the next of the limits that count for a rule.  After a limit of 0 the others are not looked at;
after one that is reached they are. -/
def nextLimit (rest : List (Entry Key)) (under : Bool) : List (Entry Key) → Pos
  | [] => if under then nextRule rest else .sleep
  | e :: es => if e.limit = 0 then .sleep else if e.limit = -1 then nextLimit rest under es else .counters e es rest under

/-- memory_queue_channel.go:240-247, 287-294: is the int64 total at the limit after one of the counters? -/
def full (limit : Int) (acc : Int) : List Int → Bool
  | [] => false
  | v :: l => if limit ≤ add64 acc v then true else full limit (add64 acc v) l

/-- What happens after a call returned. -/
def answer : Pos → Result → Pos
  | .rules, .list rs => nextRule rs
  | .overrides r rest, .list [] => nextLimit rest true [r]
  | .overrides _ rest, .list (o :: os) => nextLimit rest true (o :: os)
  | .counters e es rest under, .counters cs => nextLimit rest (under && !full e.limit 0 (cs.map (·.2))) es
  | _, .never => .stuck
  | _, _ => .crashed

end Willow.LimitWait
