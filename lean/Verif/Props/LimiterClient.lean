import Verif.Proofs.LimiterClient
import Verif.Props.LimiterHttp
/-!
C83: what a call of the limiter client returns is what happened.

`LimClient.delivered h2 c`: the request that the service handles when the client makes the call `c`, over HTTP/2 or HTTP/1.1 (`none`: no handler sees
it).  `LimClientSpec.asks c`: the request the caller means.  `LimHttpSpec.specHandle`: what a request does to the plain rules, overrides and
counters, and its answer (C82).
-/
namespace Willow.Props
open Willow Willow.Assoc Willow.Spec Willow.LimSpec Willow.Limiter Willow.Requests Willow.Queue Willow.LimHttp Willow.LimHttpSpec
open Willow.LimClient Willow.LimClientSpec
open Willow.ClientSpec (Plain)

theorem limAccepted_iff (c : LimClient.Call) : Accepted c ↔ (bodyOf c).isSome = true := by
  cases c <;> simp only [Accepted, bodyOf] <;> first | (split <;> simp_all) | simp

/-- The client rejects the call: an error, and no request is made. -/
theorem C83_rejected (s : Srv) (h2 : Bool) (e : LimHttp.Env) {c : LimClient.Call} (h : ¬ Accepted c) :
    LimClient.delivered h2 c = none ∧ LimClient.call s h2 e c = (some s, .failed) := by
  rw [limAccepted_iff] at h
  have : bodyOf c = none := by cases hb : bodyOf c <;> simp_all
  simp [LimClient.delivered, LimClient.call, this]

/-- A call that no handler sees returns an error, and nothing changes. -/
theorem C83_not_delivered (s : Srv) (h2 : Bool) (e : LimHttp.Env) {c : LimClient.Call} (h : LimClient.delivered h2 c = none) :
    LimClient.call s h2 e c = (some s, .failed) := by
  unfold LimClient.delivered at h
  unfold LimClient.call
  split at h
  · rename_i hb; simp only
  · rename_i b hb
    simp only [LimClient.reached, Option.map_eq_none_iff] at h
    split at h
    · rename_i ha; simp only [ha]
    · rename_i p ha
      simp only [ha, h]
      cases c <;> simp [LimClient.resultOf, LimClient.wants, LimClient.knows, LimClient.errorOf]

/-- A slash at the end: no handler sees the call. -/
example : LimClient.delivered true (.getRule [120, 47]) = none := by
  have : (LimClient.delivered true (.getRule [120, 47])).isNone = true := by decide +kernel
  simpa using this

/-- What a call does to the service is what the request does that was delivered. -/
theorem C83_does_what_is_delivered (s : Srv) (h2 : Bool) (e : LimHttp.Env) {c : LimClient.Call} {r : LimHttp.Req} (h : LimClient.delivered h2 c = some r) :
    (LimClient.call s h2 e c).1 = (LimHttp.handle s e r).1 := by
  unfold LimClient.delivered at h
  unfold LimClient.call
  split at h
  · cases h
  · rename_i b hb
    obtain ⟨x, hx, rfl⟩ := Option.map_eq_some_iff.1 h
    unfold LimClient.reached at hx
    split at hx
    · cases hx
    · rename_i p ha
      simp only [ha, hx]

theorem decoded_iff {c : LimClient.Call} {b : LimClient.Body} (hb : bodyOf c = some b) (hm : GoMaps c) (h : LimClient.Handler) :
    LimClient.decoded h b = LimClientSpec.asks c ↔ h = c.handler ∧ BodyOk c := by
  cases c <;> simp only [bodyOf, Option.ite_none_right_eq_some, Option.some.injEq] at hb <;>
    first
    | (obtain ⟨_, rfl⟩ := hb
       simp only [GoMaps] at hm
       simp only [LimClientSpec.asks, BodyOk, Call.handler, ← limitJson_iff hm])
    | (obtain ⟨_, rfl⟩ := hb
       simp only [GoMaps] at hm
       simp only [LimClientSpec.asks, BodyOk, Call.handler, ← counterJson_iff hm])
    | (obtain ⟨_, rfl⟩ := hb
       simp only [GoMaps] at hm
       simp only [LimClientSpec.asks, BodyOk, Call.handler, ← queryJson_iff hm])
    | (obtain ⟨_, rfl⟩ := hb
       simp only [GoMaps] at hm
       simp only [LimClientSpec.asks, BodyOk, Call.handler, ← matchJson_iff hm])
    | (obtain ⟨_, rfl⟩ := hb
       simp only [LimClientSpec.asks, BodyOk, Call.handler])
    | (subst hb
       simp only [LimClientSpec.asks, BodyOk, Call.handler])
  all_goals cases h <;> simp [LimClient.decoded, asLimit, asProps, asCounter, asQuery, asMatch]

/-- C83, the exact condition: a call that the client accepts reaches the service as the request that it means iff its names mean themselves in URLs, its keys are
UTF-8 and its queries have no empty lists. -/
theorem C83_reaches_iff (h2 : Bool) {c : LimClient.Call} (ha : Accepted c) (hm : GoMaps c) :
    LimClient.delivered h2 c = some (LimClientSpec.asks c) ↔ NamesOk c ∧ BodyOk c := by
  rw [limAccepted_iff] at ha
  obtain ⟨b, hb⟩ := Option.isSome_iff_exists.1 ha
  have hd := decoded_iff hb hm
  rw [← reached_names (h2 := h2)]
  unfold LimClient.delivered
  simp only [hb, Option.map_eq_some_iff]
  constructor
  · rintro ⟨h, h1, h3⟩
    obtain ⟨rfl, h4⟩ := (hd h).1 h3
    exact ⟨h1, h4⟩
  · rintro ⟨h1, h3⟩
    exact ⟨c.handler, h1, (hd _).2 ⟨rfl, h3⟩⟩

/-! ### Results -/

theorem call_asks_lim {s : Srv} {h2 : Bool} {e : LimHttp.Env} {c : LimClient.Call} (ha : Accepted c) (hm : GoMaps c) (hn : NamesOk c) (hk : BodyOk c) :
    LimClient.call s h2 e c =
      ((LimHttp.handle s e (LimClientSpec.asks c)).1, LimClient.resultOf c (LimClient.respond c.handler (LimHttp.handle s e (LimClientSpec.asks c)).2)) := by
  rw [limAccepted_iff] at ha
  obtain ⟨b, hb⟩ := Option.isSome_iff_exists.1 ha
  have hd := (decoded_iff hb hm c.handler).2 ⟨rfl, hk⟩
  have hr := (reached_names (h2 := h2)).2 hn
  unfold LimClient.reached at hr
  unfold LimClient.call
  simp only [hb]
  split at hr
  · cases hr
  · rename_i p hp
    simp only [hp, hr, hd]

/-- The answers that a call can get, and what it makes of them. -/
def Fits (c : LimClient.Call) (o : LimHttp.Reply) : Prop :=
  match c, o with
  | .createRule _, .created _ | .createOverride .., .created _ => True
  | .getRule _, .one _ | .getOverride .., .one _ => True
  | .queryRules _, .list _ | .matchRules _, .list _ | .queryOverrides .., .list _ | .matchOverrides .., .list _ => True
  | .queryCounters _, .counters _ => True
  | .updateRule .., .done | .deleteRule _, .done | .updateOverride .., .done | .deleteOverride .., .done | .updateCounter _, .done | .setCounters _, .done => True
  | c, .error code => (code ∈ LimClient.knows c ∧ code ≠ LimClient.wants c ∧ ¬ (code = 404 ∧ Deaf404 c)) ∨ (code = 404 ∧ Deaf404 c)
  | _, _ => False

theorem spec_fits (w : LimSpec.St) {c : LimClient.Call} : Fits c (specHandle w (LimClientSpec.asks c)).2 := by
  cases c <;> simp only [LimClientSpec.asks, specHandle, valid, there] <;> (repeat' split) <;>
    simp [Fits, LimClient.knows, LimClient.wants, Deaf404]

theorem fits_tells {c : LimClient.Call} {o o' : LimHttp.Reply} (hf : Fits c o') (hs : SameReply o o') :
    Tells c o' (LimClient.resultOf c (LimClient.respond c.handler o)) := by
  cases o' with
  | error code =>
    have : o = .error code := by cases o <;> simp_all [SameReply]
    subst this
    have hf : (code ∈ LimClient.knows c ∧ code ≠ LimClient.wants c ∧ ¬ (code = 404 ∧ Deaf404 c)) ∨ (code = 404 ∧ Deaf404 c) := by
      cases c <;> exact hf
    rcases hf with ⟨h1, h3, h4⟩ | ⟨rfl, h1⟩
    · refine Or.inl ⟨?_, h4⟩
      simp only [LimClient.respond, LimClient.resultOf, if_neg h3, if_pos h1, LimClient.errorOf]
    · refine Or.inr ⟨?_, rfl, h1⟩
      cases c <;> simp_all [Deaf404, LimClient.respond, LimClient.resultOf, LimClient.wants, LimClient.knows]
  | panicked => cases c <;> simp [Fits] at hf
  | stalls => cases c <;> simp [Fits] at hf
  | list l =>
    cases o <;> simp only [SameReply, reduceCtorEq] at hs
    all_goals cases c <;> simp_all [Fits, Tells, LimClient.respond, LimClient.resultOf, LimClient.wants, LimClient.payload]
  | counters l =>
    cases o <;> simp only [SameReply, reduceCtorEq] at hs
    all_goals cases c <;> simp_all [Fits, Tells, LimClient.respond, LimClient.resultOf, LimClient.wants, LimClient.payload]
  | done =>
    have : o = .done := by cases o <;> simp_all [SameReply]
    subst this
    cases c <;> simp_all [Fits, Tells, LimClient.respond, LimClient.resultOf, LimClient.wants, LimClient.payload, LimClient.okStatus, Call.handler]
  | created x =>
    have : o = .created x := by cases o <;> simp_all [SameReply]
    subst this
    cases c <;> simp_all [Fits, Tells, LimClient.respond, LimClient.resultOf, LimClient.wants, LimClient.payload]
  | one x =>
    have : o = .one x := by cases o <;> simp_all [SameReply]
    subst this
    cases c <;> simp_all [Fits, Tells, LimClient.respond, LimClient.resultOf, LimClient.wants, LimClient.payload]

theorem spec_error {w : LimSpec.St} {r : LimHttp.Req} {code : Nat} (h : (specHandle w r).2 = .error code) : (specHandle w r).1 = w := by
  revert h
  cases r <;> simp only [specHandle, valid, there] <;> (repeat' split) <;> simp

/-- C83, for the names, keys and queries that survive the way, after every history: a call that returns no error did exactly what it asked for and returned what
is there; a call that returns an error changed nothing, and returns the error of the service, except that DeleteRule, QueryOverrides and MatchOverrides do not
say that the rule is missing. -/
theorem C83_results_partial {s : Srv} {B : Int} (h : Reached s B) (h2 : Bool) {e : LimHttp.Env} (hc : ValidChoice e.ch) {c : LimClient.Call}
    (ha : Accepted c) (hm : GoMaps c) (hn : NamesOk c) (hk : BodyOk c) (hw : WellTyped (LimClientSpec.asks c)) (ht : Tame (LimClientSpec.asks c))
    (hB : B + amountOf (LimClientSpec.asks c) < 2 ^ 63) :
    ∃ s' res, LimClient.call s h2 e c = (some s', res) ∧ Tells c (specHandle (Limiter.abs s.lim) (LimClientSpec.asks c)).2 res ∧
      Limiter.abs s'.lim = (specHandle (Limiter.abs s.lim) (LimClientSpec.asks c)).1 ∧ (¬ NoError res → Limiter.abs s'.lim = Limiter.abs s.lim) := by
  obtain ⟨s', o, h1, h3, h4, h5⟩ := C82_answers_partial h hc hw ht hB
  have hT := fits_tells (spec_fits (Limiter.abs s.lim)) h4
  refine ⟨s', _, by rw [call_asks_lim ha hm hn hk, h1], hT, h5, fun hne => ?_⟩
  rw [h5]
  cases hr : (specHandle (Limiter.abs s.lim) (LimClientSpec.asks c)).2 with
  | error code => exact spec_error hr
  | panicked => rw [hr] at hT; exact hT.elim
  | stalls => rw [hr] at hT; exact hT.elim
  | done => rw [hr] at hT; rw [show LimClient.resultOf c _ = _ from hT] at hne; exact absurd trivial hne
  | created x => rw [hr] at hT; rw [show LimClient.resultOf c _ = _ from hT] at hne; exact absurd trivial hne
  | one x => rw [hr] at hT; rw [show LimClient.resultOf c _ = _ from hT] at hne; exact absurd trivial hne
  | list l => rw [hr] at hT; obtain ⟨l', hT, _⟩ := hT; rw [hT] at hne; exact absurd trivial hne
  | counters l => rw [hr] at hT; obtain ⟨l', hT, _⟩ := hT; rw [hT] at hne; exact absurd trivial hne

/-! ### Names that do not survive -/

theorem plain_parts {n : GoString} (h : Plain n) : (47 : UInt8) ∉ n ∧ ∀ b ∈ n, Clear b := (plain_iff.1 h).2

/-- "r/overrides/o" -/
def slashName (r o : GoString) : GoString := r ++ 47 :: (sOverrides ++ 47 :: o)

/-- C83 is false of the code for names with a slash: whatever the rules are, GetRule, UpdateRule and DeleteRule of the rule "r/overrides/o" read, change and
delete the override "o" of the rule "r". -/
theorem C83_violated_slash (h2 : Bool) {r o : GoString} (hr : Plain r) (ho : Plain o) (hq : ¬ Reserved o) (p : LimitProps) (hp : p.validate = true) :
    LimClient.delivered h2 (.getRule (slashName r o)) = some (.getOverride r o) ∧
    LimClient.delivered h2 (.updateRule (slashName r o) p) = some (.updateOverride r o (some p)) ∧
    LimClient.delivered h2 (.deleteRule (slashName r o)) = some (.deleteOverride r o) := by
  have key : ∀ c : LimClient.Call, NamesOk c → ∀ m, c.handler.method = m → c.handler.segs = [Client.sV1, sLimiter, sRules, r, sOverrides, o] →
      LimClient.reached h2 m (pathOf [Client.sV1, sLimiter, sRules, slashName r o]) = some c.handler := by
    intro c hn m hm hs
    have := (reached_names (h2 := h2)).2 hn
    rw [hs, hm] at this
    rw [← this]
    congr 1
    simp [pathOf, slashName]
  refine ⟨?_, ?_, ?_⟩
  · have := key (.getOverride r o) ⟨hr, ho, hq⟩ _ rfl rfl
    simp only [LimClient.delivered, bodyOf, Call.handler, Handler.segs] at this ⊢
    rw [show (LimClient.Handler.getRule (slashName r o)).method = (LimClient.Handler.getOverride r o).method from rfl, this]; rfl
  · have := key (.updateOverride r o p) ⟨hr, ho⟩ _ rfl rfl
    simp only [LimClient.delivered, bodyOf, Call.handler, Handler.segs, hp, if_true] at this ⊢
    rw [show (LimClient.Handler.updateRule (slashName r o)).method = (LimClient.Handler.updateOverride r o).method from rfl, this]; rfl
  · have := key (.deleteOverride r o) ⟨hr, ho⟩ _ rfl rfl
    simp only [LimClient.delivered, bodyOf, Call.handler, Handler.segs] at this ⊢
    rw [show (LimClient.Handler.deleteRule (slashName r o)).method = (LimClient.Handler.deleteOverride r o).method from rfl, this]; rfl

/-- What follows `#` is not sent. -/
theorem arrives_fragment (h2 : Bool) {a b : GoString} (ha : ∀ x ∈ a, Clear x) (hb : (37 : UInt8) ∉ b) : Client.arrives h2 (a ++ 35 :: b) = some a := by
  have h35 : (35 : UInt8) ∉ a := fun hm => (ha _ hm).2.1 rfl
  have e : Client.arrives h2 (a ++ 35 :: b) = Client.arrives h2 a := by
    have : Client.parse (a ++ 35 :: b) = Client.parse a := by
      unfold Client.parse
      rw [Client.cut_append h35, Client.cut_absent h35]
      simp only [Option.getD_some, Option.getD_none, Client.unescape_plain hb]
      rfl
    unfold Client.arrives
    rw [this]
  rw [e, Client.arrives_plain h2 ha]

theorem reached_fragment (h2 : Bool) {c : LimClient.Call} (hn : NamesOk c) {b : GoString} (hb : (37 : UInt8) ∉ b) :
    LimClient.reached h2 c.handler.method (pathOf c.handler.segs ++ 35 :: b) = some c.handler := by
  have := (reached_names (h2 := h2)).2 hn
  obtain ⟨h1, _⟩ := reached_iff.1 this
  unfold LimClient.reached at this ⊢
  rw [arrives_fragment h2 (pathOf_clear.2 (fun x hx => (h1 x hx).2)) hb]
  rwa [Client.arrives_plain h2 (pathOf_clear.2 (fun x hx => (h1 x hx).2))] at this

/-- C83 is false of the code for names with `#`: UpdateOverride and DeleteOverride of any override of the rule "r#" change and delete the rule "r", GetOverride
reads it, and DeleteRule of "r#" deletes "r". -/
theorem C83_violated_fragment (h2 : Bool) {r o : GoString} (hr : Plain r) (hq : ¬ Reserved r) (ho : (37 : UInt8) ∉ o) (p : LimitProps) (hp : p.validate = true) :
    LimClient.delivered h2 (.deleteOverride (r ++ [35]) o) = some (.deleteRule r) ∧
    LimClient.delivered h2 (.updateOverride (r ++ [35]) o p) = some (.updateRule r (some p)) ∧
    LimClient.delivered h2 (.getOverride (r ++ [35]) o) = some (.getRule r) ∧
    LimClient.delivered h2 (.deleteRule (r ++ [35])) = some (.deleteRule r) := by
  have hso : (37 : UInt8) ∉ 47 :: (sOverrides ++ 47 :: o) := by
    simp only [List.mem_cons, List.mem_append, not_or]
    exact ⟨by decide, by decide, by decide, ho⟩
  have e : pathOf [Client.sV1, sLimiter, sRules, r ++ [35], sOverrides, o] =
      pathOf [Client.sV1, sLimiter, sRules, r] ++ 35 :: (47 :: (sOverrides ++ 47 :: o)) := by simp [pathOf]
  have e2 : pathOf [Client.sV1, sLimiter, sRules, r ++ [35]] = pathOf [Client.sV1, sLimiter, sRules, r] ++ 35 :: [] := by simp [pathOf]
  refine ⟨?_, ?_, ?_, ?_⟩
  · have := reached_fragment h2 (c := .deleteRule r) hr hso
    simp only [Call.handler, Handler.segs, ← e] at this
    simp only [LimClient.delivered, bodyOf, Call.handler, Handler.segs]
    rw [show (LimClient.Handler.deleteOverride (r ++ [35]) o).method = (LimClient.Handler.deleteRule r).method from rfl, this]; rfl
  · have := reached_fragment h2 (c := .updateRule r p) hr hso
    simp only [Call.handler, Handler.segs, ← e] at this
    simp only [LimClient.delivered, bodyOf, Call.handler, Handler.segs, hp, if_true]
    rw [show (LimClient.Handler.updateOverride (r ++ [35]) o).method = (LimClient.Handler.updateRule r).method from rfl, this]; rfl
  · have := reached_fragment h2 (c := .getRule r) ⟨hr, hq⟩ hso
    simp only [Call.handler, Handler.segs, ← e] at this
    simp only [LimClient.delivered, bodyOf, Call.handler, Handler.segs]
    rw [show (LimClient.Handler.getOverride (r ++ [35]) o).method = (LimClient.Handler.getRule r).method from rfl, this]; rfl
  · have := reached_fragment h2 (c := .deleteRule r) (b := []) hr (by simp)
    simp only [Call.handler, Handler.segs, ← e2] at this
    simp only [LimClient.delivered, bodyOf, Call.handler, Handler.segs]
    rw [show (LimClient.Handler.deleteRule (r ++ [35])).method = (LimClient.Handler.deleteRule r).method from rfl, this]; rfl

/-- The names of operations: GetRule of "query" is always answered 400, as a query without a body; GetOverride of "query" always fails. -/
theorem C83_violated_reserved (s : Srv) (h2 : Bool) (e : LimHttp.Env) {r n : GoString} (hr : Plain r) (hn : Reserved n) :
    LimClient.call s h2 e (.getRule n) = (some s, .apiError 400) ∧ LimClient.call s h2 e (.getOverride r n) = (some s, .failed) := by
  obtain ⟨hc, hx⟩ := const_plain
  have hp : ∀ l : List GoString, (∀ x ∈ l, Plain x) → Client.arrives h2 (pathOf l) = some (pathOf l) ∧ ∀ m, LimClient.route m (pathOf l) = routeSegs m l :=
    fun l h => ⟨Client.arrives_plain h2 (pathOf_clear.2 (fun x hx => (plain_parts (h x hx)).2)), fun m => route_pathOf (fun x hx => (plain_parts (h x hx)).1)⟩
  have hn' : Plain n := by rcases (hx n).1 hn with rfl | rfl <;> decide
  have q1 := hp [Client.sV1, sLimiter, sRules, n] (by
    intro x hx
    simp only [List.mem_cons, List.not_mem_nil, or_false] at hx
    rcases hx with rfl | rfl | rfl | rfl
    · decide
    · decide
    · decide
    · exact hn')
  have q2 := hp [Client.sV1, sLimiter, sRules, r, sOverrides, n] (by
    intro x hx
    simp only [List.mem_cons, List.not_mem_nil, or_false] at hx
    rcases hx with rfl | rfl | rfl | rfl | rfl | rfl
    · decide
    · decide
    · decide
    · exact hr
    · decide
    · exact hn')
  have hm : sMatch ≠ sQuery := by decide
  have hq : sQuery ≠ [] := by decide
  have hm' : sMatch ≠ [] := by decide
  rcases (hx n).1 hn with rfl | rfl
  · constructor
    · simp only [LimClient.call, bodyOf, Call.handler, Handler.segs, q1.1, q1.2]
      simp [routeSegs, routeRules, routeRule, Handler.method, LimClient.decoded, asQuery, LimHttp.handle, hq, LimClient.respond, LimClient.resultOf,
        LimClient.wants, LimClient.knows, LimClient.errorOf]
    · simp only [LimClient.call, bodyOf, Call.handler, Handler.segs, q2.1, q2.2]
      simp [routeSegs, routeRules, routeOverride, Handler.method, LimClient.decoded, asQuery, LimHttp.handle, hq, hr.1, LimClient.respond, LimClient.resultOf,
        LimClient.wants, LimClient.knows]
  · constructor
    · simp only [LimClient.call, bodyOf, Call.handler, Handler.segs, q1.1, q1.2]
      simp [routeSegs, routeRules, routeRule, Handler.method, LimClient.decoded, asMatch, LimHttp.handle, hm, hm', LimClient.respond, LimClient.resultOf,
        LimClient.wants, LimClient.knows, LimClient.errorOf]
    · simp only [LimClient.call, bodyOf, Call.handler, Handler.segs, q2.1, q2.2]
      simp [routeSegs, routeRules, routeOverride, Handler.method, LimClient.decoded, asMatch, LimHttp.handle, hm, hm', hr.1, LimClient.respond, LimClient.resultOf,
        LimClient.wants, LimClient.knows]

/-- QueryOverrides of the rule "query#" returns the rules that the query selects as if they were overrides; MatchOverrides of it returns all rules. -/
theorem C83_violated_wrong_list (h2 : Bool) {q : Query Key} (hq : validQuery q = true) {m : MatchQuery Key} (hm : validMatch m = true) :
    LimClient.delivered h2 (.queryOverrides (sQuery ++ [35]) q) = some (.queryRules (some (queryJson q))) ∧
    LimClient.delivered h2 (.matchOverrides (sQuery ++ [35]) m) = some (.queryRules (some (.mk none [] [] true))) := by
  have e : ∀ x, pathOf [Client.sV1, sLimiter, sRules, sQuery ++ [35], sOverrides, x] =
      pathOf [Client.sV1, sLimiter, sRules, sQuery] ++ 35 :: (47 :: (sOverrides ++ 47 :: x)) := by simp [pathOf]
  constructor
  · have := reached_fragment h2 (c := .queryRules q) trivial (b := 47 :: (sOverrides ++ 47 :: sQuery)) (by decide)
    simp only [Call.handler, Handler.segs, ← e] at this
    simp only [LimClient.delivered, bodyOf, Call.handler, Handler.segs, hq, if_true]
    rw [show (LimClient.Handler.queryOverrides (sQuery ++ [35])).method = LimClient.Handler.queryRules.method from rfl, this]; rfl
  · have := reached_fragment h2 (c := .queryRules q) trivial (b := 47 :: (sOverrides ++ 47 :: sMatch)) (by decide)
    simp only [Call.handler, Handler.segs, ← e] at this
    simp only [LimClient.delivered, bodyOf, Call.handler, Handler.segs, hm, if_true]
    rw [show (LimClient.Handler.matchOverrides (sQuery ++ [35])).method = LimClient.Handler.queryRules.method from rfl, this]; rfl

/-- Keys that are not UTF-8: the counter that is counted is another one, with a key that is UTF-8. -/
theorem C83_violated_not_utf8 (h2 : Bool) {k : GoString} {v : Key} {n : Int} (hk : ¬ ValidUtf8 k) (hv : validKVs false [(k, some v)] = true) :
    LimClient.delivered h2 (.updateCounter ⟨some (some [(k, some v)], some (some n))⟩) =
      some (.upsert (some ⟨some (some [(repair k, some v)], some (some n))⟩)) ∧ repair k ≠ k := by
  constructor
  · have := (reached_names (h2 := h2) (c := .updateCounter ⟨some (some [(k, some v)], some (some n))⟩)).2 trivial
    simp only [LimClient.delivered, bodyOf, CounterBody.validateSpecOnly, hv, if_true, this, Option.map_some]
    simp [Call.handler, LimClient.decoded, asCounter, counterJson, kvsJson, lastWins, keyJson, jsonUnquote_jsonQuote]
  · exact fun e => hk ((repair_iff_valid k).1 e)

/-- DeleteRule of a rule that is not there: the service says 404, the client returns "unexpected status code". -/
theorem C83_violated_missing_unexplained {s : Srv} {B : Int} (h : Reached s B) (h2 : Bool) {e : LimHttp.Env} (hc : ValidChoice e.ch) {n : GoString} (hn : Plain n)
    (hr : ruleNamed (Limiter.abs s.lim) n = none) (hB : B < 2 ^ 63) :
    ∃ s', LimHttp.handle s e (.deleteRule n) = (some s', .error 404) ∧ LimClient.call s h2 e (.deleteRule n) = (some s', .failed) := by
  have hB' : B + amountOf (.deleteRule n) < 2 ^ 63 := by show B + 0 < _; omega
  obtain ⟨s', o, h1, _, h4, _⟩ := C82_answers_partial h hc (r := .deleteRule n) trivial trivial hB'
  have : o = .error 404 := by
    simp only [specHandle, there, hr] at h4
    cases o <;> simp_all [SameReply]
  subst this
  refine ⟨s', h1, ?_⟩
  rw [call_asks_lim (c := .deleteRule n) trivial trivial hn trivial]
  simp only [LimClientSpec.asks, h1]
  rfl

/-! ### Example -/

/-- The ids that the service gives out survive. -/
theorem ids_survive (i : Nat) : Plain (idStr i) ∧ ¬ Reserved (idStr i) := by
  refine ⟨⟨by simp [idStr, List.replicate], fun b hb => ?_⟩, fun h => ?_⟩
  · rw [List.eq_of_mem_replicate hb]; decide
  · rcases h with h | h <;> simp [idStr, List.replicate] at h

/-- A rule for all values of `a` with a limit of 2, and an override of it for a = 1 with a limit of 1. -/
def cliSetup : List LimClient.Call :=
  [.createRule ⟨some (some [(sa, some kany)], some ⟨some 2⟩), none⟩, .createOverride (idStr 0) ⟨some (some [(sa, some (ki 1))], some ⟨some 1⟩), none⟩]

/-- Results as short codes. -/
def cliCode : LimClient.Result → Nat
  | .ok => 200 | .one e => 2000 + e.limit.toNat | .list l => 3000 + l.length | .counters l => 4000 + l.length | .apiError c => c | .failed => 0 | .never => 1

/-- Calls that meet the hypotheses of `C83_results_partial`; what they return. -/
example : (∀ c ∈ cliSetup ++ [.updateCounter ⟨some (some [(sa, some (ki 1))], some (some 1))⟩, .queryOverrides (idStr 0) readQ2, .getRule (idStr 0)],
      Accepted c ∧ GoMaps c ∧ NamesOk c ∧ BodyOk c ∧ WellTyped (LimClientSpec.asks c) ∧ Tame (LimClientSpec.asks c)) ∧
    ∀ h2, (LimClient.calls Srv.init h2 httpEnv (cliSetup ++ [.getRule (idStr 0), .getOverride (idStr 0) (idStr 0),
      .updateCounter ⟨some (some [(sa, some (ki 1))], some (some 1))⟩, .updateCounter ⟨some (some [(sa, some (ki 1))], some (some 1))⟩,
      .getOverride (idStr 0) sb, .deleteRule sb, .queryRules readQ2, .updateRule (idStr 0) ⟨some (-2)⟩])).2.map cliCode =
        [2002, 2001, 2002, 2001, 200, 409, 404, 0, 3000, 0] := by
  constructor
  · have hsa : ValidUtf8 sa := by rw [← repair_iff_valid]; decide +kernel
    have hsb : ValidUtf8 sb := by rw [← repair_iff_valid]; decide +kernel
    have hk : ∀ {A : Type} (x : A), KeysOk [(sa, x)] := fun x y hy => by simp only [List.mem_singleton] at hy; subst hy; exact hsa
    have hq : QueryOk readQ2 ∧ everywhere (fun s => (s.kvs.map (·.1)).Nodup) (fun _ => True) readQ2 := by
      refine ⟨⟨⟨?_, trivial, trivial⟩, fun _ _ => rfl⟩, ?_, trivial, trivial⟩
      · rintro x ⟨⟩ y hy
        simp only [List.mem_singleton] at hy; subst hy; exact hsb
      · rintro x ⟨⟩
        simp
    intro c hc
    simp only [cliSetup, List.mem_append, List.mem_cons, List.not_mem_nil, or_false] at hc
    rcases hc with (rfl | rfl) | rfl | rfl | rfl
    all_goals refine ⟨by first | trivial | decide +kernel, ?_, ?_, ?_, ?_, ?_⟩
    all_goals first | trivial | (simp [GoMaps]; done) | exact (ids_survive 0).1 | exact ids_survive 0 | exact hq.1 | exact hq.2 | (rintro _ _ ⟨⟩; exact hk _) |
      (simp only [LimClientSpec.asks, WellTyped, LimSpec.Int64]; decide +kernel) | exact fun _ => readQ_good.2.1
  · decide +kernel

/-- The hypotheses of the counterexamples are met by ids that the service gave out.  Over HTTP/2 and HTTP/1.1: GetRule of "x/overrides/x" returns the override
(limit 1) as a rule; DeleteOverride of any override of "x#" returns no error and the rule with its overrides is gone. -/
example : ∀ h2, (LimClient.calls Srv.init h2 httpEnv (cliSetup ++ [.getRule (slashName (idStr 0) (idStr 0)), .deleteOverride (idStr 0 ++ [35]) sb,
      .getRule (idStr 0), .getOverride (idStr 0) (idStr 0)])).2.map cliCode = [2002, 2001, 2001, 200, 404, 404] := by
  decide +kernel

/-- UpdateCounter of {"\xff": 1} and of {"\xfe": 1} count the same thing, {"\ufffd": 1}. -/
example : ¬ ValidUtf8 [255] ∧ validKVs false [(([255] : GoString), some (ki 1))] = true ∧ repair [255] = repair [254] := by
  refine ⟨?_, by decide +kernel, by decide +kernel⟩
  rw [← repair_iff_valid]
  decide +kernel

end Willow.Props
