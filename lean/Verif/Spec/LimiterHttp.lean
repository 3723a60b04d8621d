import Verif.Model.LimiterHttp
import Verif.Spec.Limiter
import Verif.Spec.Requests
/-
Specification for C82: what each request to the limiter does to the plain rules, overrides and counters (LimSpec.St), and its answer.
-/
namespace Willow.LimHttpSpec
open Willow Willow.Assoc Willow.Spec Willow.LimSpec Willow.Limiter Willow.Requests Willow.LimHttp

/-! ### What a body asks for; `none`: it does not pass validation -/

/-- A rule or override: at least one key, all values there, and a limit of at least -1. -/
def limitAsked : Option LimitBody → Option (KVs Key × Int)
  | some ⟨some (some kvs, some ⟨some l⟩), _⟩ => if !kvs.isEmpty && kvs.all (fun kv => kv.2.isSome) && decide (-1 ≤ l) then some (kvsOf kvs, l) else none
  | _ => none
/-- A new limit. -/
def propsAsked : Option LimitProps → Option Int
  | some ⟨some l⟩ => if -1 ≤ l then some l else none
  | _ => none
/-- A counter: at least one key, all values there and none the wildcard, and an amount. -/
def counterAsked : Option CounterBody → Option (KVs Key × Int)
  | some ⟨some (some kvs, some (some c))⟩ =>
    if !kvs.isEmpty && kvs.all (fun kv => match kv.2 with | some k => !wild k | none => false) then some (kvsOf kvs, c) else none
  | _ => none
/-- A query. -/
def queryAsked (q : Option (Query Key)) : Option (Query Key) := q.filter validQuery
/-- A match. -/
def matchAsked (m : Option (MatchQuery Key)) : Option (MatchQuery Key) := m.filter validMatch

/-! ### The requests on plain lists -/

/-- The rule with an id. -/
def ruleNamed (w : LimSpec.St) (n : GoString) : Option Rule := w.rules.find? (fun r => idStr r.id == n)
/-- The override of a rule with an id. -/
def overrideNamed (r : Rule) (n : GoString) : Option Override := r.overrides.find? (fun o => idStr o.id == n)
/-- How a rule is shown. -/
def showR (r : Rule) : Entry Key := ⟨r.id, r.kvs, r.limit⟩
/-- How an override is shown. -/
def showO (o : Override) : Entry Key := ⟨o.id, o.kvs, o.limit⟩
/-- What is shown satisfies a query. -/
def sat (q : Query Key) (e : Entry Key) : Bool := satisfies q (⟨e.id, e.kvs, ()⟩ : Item Key Unit)

/-- The answer, with the state after it, if the body passes validation. -/
def valid {A : Type} (w : LimSpec.St) (a : Option A) (f : A → LimSpec.St × LimHttp.Reply) : LimSpec.St × LimHttp.Reply :=
  match a with
  | none => (w, .error 400)
  | some a => f a
/-- The same for a thing that has to be there. -/
def there {A : Type} (w : LimSpec.St) (a : Option A) (f : A → LimSpec.St × LimHttp.Reply) : LimSpec.St × LimHttp.Reply :=
  match a with
  | none => (w, .error 404)
  | some a => f a

/-- Every request, on plain lists. -/
def specHandle (w : LimSpec.St) : LimHttp.Req → LimSpec.St × LimHttp.Reply
  | .createRule b => valid w (limitAsked b) fun a =>
    if w.rules.any (fun r => sameKVs a.1 r.kvs) then (w, .error 409)
    else ({ w with rules := w.rules ++ [⟨w.nextId, a.1, a.2, [], 0⟩], nextId := w.nextId + 1 }, .created ⟨w.nextId, a.1, a.2⟩)
  | .queryRules q => valid w (queryAsked q) fun q => (w, .list ((w.rules.map showR).filter (sat q)))
  | .matchRules m => valid w (matchAsked m) fun m => (w, .list ((w.rules.map showR).filter (fun e => covered m e.kvs)))
  | .getRule n => there w (ruleNamed w n) fun r => (w, .one (showR r))
  | .updateRule n p => valid w (propsAsked p) fun l => there w (ruleNamed w n) fun r => (w.setRule r.id (fun r => { r with limit := l }), .done)
  | .deleteRule n => there w (ruleNamed w n) fun r => ({ w with rules := w.rules.filter (fun r' => r'.id != r.id) }, .done)
  | .createOverride n b => valid w (limitAsked b) fun a => there w (ruleNamed w n) fun r =>
    if r.kvs.any (fun kv => !a.1.any (fun x => x.1 == kv.1)) then (w, .error 400)
    else if a.1.any (fun kv => kv.1 == OTM.reservedID) then (w, .error 500)
    else if r.overrides.any (fun o => sameKVs a.1 o.kvs) then (w, .error 409)
    else (w.setRule r.id (fun r => { r with overrides := r.overrides ++ [⟨r.nextId, a.1, a.2⟩], nextId := r.nextId + 1 }), .created ⟨r.nextId, a.1, a.2⟩)
  | .queryOverrides n q => valid w (queryAsked q) fun q => there w (ruleNamed w n) fun r => (w, .list ((r.overrides.map showO).filter (sat q)))
  | .matchOverrides n m => valid w (matchAsked m) fun m => there w (ruleNamed w n) fun r =>
    (w, .list ((r.overrides.map showO).filter (fun e => covered m e.kvs)))
  | .getOverride n o => there w (ruleNamed w n) fun r => there w (overrideNamed r o) fun x => (w, .one (showO x))
  | .updateOverride n o p => valid w (propsAsked p) fun l => there w (ruleNamed w n) fun r => there w (overrideNamed r o) fun x =>
    (w.setRule r.id (fun r => r.setOverride x.id l), .done)
  | .deleteOverride n o => there w (ruleNamed w n) fun r =>
    (w.setRule r.id (fun r => { r with overrides := r.overrides.filter (fun x => idStr x.id != o) }), .done)
  | .upsert b => valid w (counterAsked b) fun a =>
    if a.2 > 0 then
      if allowed w a.1 then ({ w with counters := putCounter w.counters a.1 a.2 (· + a.2) }, .done) else (w, .error 409)
    else if valueAt w.counters a.1 + a.2 ≤ 0 then ({ w with counters := removeCounter w.counters a.1 }, .done)
    else ({ w with counters := changeCounter w.counters a.1 (· + a.2) }, .done)
  | .queryCounters q => valid w (queryAsked q) fun q =>
    (w, .counters ((w.counters.filter (fun c => satisfies q (⟨0, c.kvs, c.value⟩ : Item Key Int))).map (fun c => (c.kvs, c.value))))
  | .setCounters b => valid w (counterAsked b) fun a =>
    if a.2 ≤ 0 then ({ w with counters := removeCounter w.counters a.1 }, .done)
    else ({ w with counters := putCounter w.counters a.1 a.2 (fun _ => a.2) }, .done)

/-- The same answer, up to the order of a list. -/
def SameReply : LimHttp.Reply → LimHttp.Reply → Prop
  | .list l, .list l' => l.Perm l'
  | .counters l, .counters l' => l.Perm l'
  | a, b => a = b

/-- The request is answered. -/
def Answered : LimHttp.Reply → Prop
  | .panicked | .stalls => False
  | _ => True

/-! ### Requests -/

/-- What every decoded body satisfies: a key occurs once in a JSON object, and numbers are int64. -/
def WellTyped : LimHttp.Req → Prop
  | .createRule (some ⟨some (some kvs, some ⟨some l⟩), _⟩) | .createOverride _ (some ⟨some (some kvs, some ⟨some l⟩), _⟩) =>
    (kvs.map (·.1)).Nodup ∧ LimSpec.Int64 l
  | .updateRule _ (some ⟨some l⟩) | .updateOverride _ _ (some ⟨some l⟩) => LimSpec.Int64 l
  | .upsert (some ⟨some (some kvs, some (some c))⟩) | .setCounters (some ⟨some (some kvs, some (some c))⟩) => (kvs.map (·.1)).Nodup ∧ LimSpec.Int64 c
  | .matchRules (some m) | .matchOverrides _ (some m) => (m.kvs.map (·.1)).Nodup
  | _ => True

/-- The queries outside the reported problems of C20: no `{"And":[]}`, no empty sub-query, exact selections. -/
def TameQuery (q : Query Key) : Prop := everywhere (fun s => ValidSel s ∧ SelExact s) Asks q ∧ (IsEmptyQuery q ∨ Asks q)
/-- The same without selections by id: counters have ids only internally. -/
def TameCounters (q : Query Key) : Prop := everywhere (fun s => ValidSel s ∧ SelExact s ∧ s.ids = []) Asks q ∧ (IsEmptyQuery q ∨ Asks q)
/-- The matches outside the reported problem of C22. -/
def TameMatch (m : MatchQuery Key) : Prop := m.min.getD 0 ≤ m.max.getD (-1) ∨ m.max.getD (-1) = -1

/-- Reads with queries and matches outside the reported problems; counters are not selected by internal ids. -/
def Tame : LimHttp.Req → Prop
  | .queryRules (some q) | .queryOverrides _ (some q) => validQuery q = true → TameQuery q
  | .queryCounters (some q) => validQuery q = true → TameCounters q
  | .matchRules (some m) | .matchOverrides _ (some m) => TameMatch m
  | _ => True

/-- Reads of the overrides of a rule. -/
def IsOverrideRead : LimHttp.Req → Prop
  | .queryOverrides .. | .matchOverrides .. => True
  | _ => False

/-- How much a request can add to a counter. -/
def amountOf : LimHttp.Req → Int
  | .upsert b | .setCounters b => match counterAsked b with | some a => max a.2 0 | none => 0
  | _ => 0

/-- What a service can go through with requests of any kind whose amounts sum up to `B` < 2^63, as long as no read of overrides panicked. -/
inductive Reached : Srv → Int → Prop
  | init : Reached Srv.init 0
  | step {s s' : Srv} {B : Int} {e : LimHttp.Env} {r : LimHttp.Req} {o : LimHttp.Reply} : Reached s B → WellTyped r → ValidChoice e.ch → LimHttp.handle s e r = (some s', o) →
    (IsOverrideRead r → Answered o) → B + amountOf r < 2 ^ 63 → Reached s' (B + amountOf r)

/-- Requests, one after the other, on plain lists. -/
def specAll (w : LimSpec.St) : List LimHttp.Req → LimSpec.St × List LimHttp.Reply
  | [] => (w, [])
  | r :: rs => ((specAll (specHandle w r).1 rs).1, (specHandle w r).2 :: (specAll (specHandle w r).1 rs).2)

/-- A body that does not pass validation. -/
def Malformed : LimHttp.Req → Prop
  | .createRule b | .createOverride _ b => limitAsked b = none
  | .updateRule _ p | .updateOverride _ _ p => propsAsked p = none
  | .upsert b | .setCounters b => counterAsked b = none
  | .queryRules q | .queryOverrides _ q | .queryCounters q => queryAsked q = none
  | .matchRules m | .matchOverrides _ m => matchAsked m = none
  | _ => False

end Willow.LimHttpSpec
