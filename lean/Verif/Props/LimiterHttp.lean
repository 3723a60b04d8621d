import Verif.Proofs.LimiterHttp
/-
Property C82: requests to the limiter, from the decoded body to the answer.

The answers and effects are those of the plain specification `LimHttpSpec.specHandle` (rules, overrides and counters in plain lists, looked up by the
strings of the URL).
-/
namespace Willow.Props
open Assoc Spec OTM LimSpec Limiter Requests LimHttp LimHttpSpec

/-- A request with a body that does not pass validation is answered with 400 and changes nothing, whatever the state of the service. -/
theorem C82_malformed (s : Srv) (e : LimHttp.Env) {r : LimHttp.Req} (h : Malformed r) : LimHttp.handle s e r = (some s, .error 400) := by
  cases r with
  | createRule b =>
    rcases limit_cases b with ⟨_, h2⟩ | ⟨_, _, _, _, _, h3, _⟩
    · cases b with
      | none => rfl
      | some b => simp [LimHttp.handle, h2 b rfl]
    · exact absurd (h3.symm.trans h) (by simp)
  | createOverride n b =>
    rcases limit_cases b with ⟨_, h2⟩ | ⟨_, _, _, _, _, h3, _⟩
    · cases b with
      | none => rfl
      | some b => simp [LimHttp.handle, h2 b rfl]
    · exact absurd (h3.symm.trans h) (by simp)
  | updateRule n p =>
    rcases props_cases p with ⟨_, h2⟩ | ⟨_, _, _, h3, _⟩
    · cases p with
      | none => rfl
      | some p => simp [LimHttp.handle, h2 p rfl]
    · exact absurd (h3.symm.trans h) (by simp)
  | updateOverride n o p =>
    rcases props_cases p with ⟨_, h2⟩ | ⟨_, _, _, h3, _⟩
    · cases p with
      | none => rfl
      | some p => simp [LimHttp.handle, h2 p rfl]
    · exact absurd (h3.symm.trans h) (by simp)
  | upsert b =>
    rcases counter_cases b with ⟨_, h2⟩ | ⟨_, _, _, _, h3, _⟩
    · cases b with
      | none => rfl
      | some b => simp [LimHttp.handle, h2 b rfl]
    · exact absurd (h3.symm.trans h) (by simp)
  | setCounters b =>
    rcases counter_cases b with ⟨_, h2⟩ | ⟨_, _, _, _, h3, _⟩
    · cases b with
      | none => rfl
      | some b => simp [LimHttp.handle, h2 b rfl]
    · exact absurd (h3.symm.trans h) (by simp)
  | queryRules q =>
    rcases query_cases q with ⟨_, h2⟩ | ⟨_, _, _, h3⟩
    · cases q with
      | none => rfl
      | some q => simp [LimHttp.handle, h2 q rfl]
    · exact absurd (h3.symm.trans h) (by simp)
  | queryOverrides n q =>
    rcases query_cases q with ⟨_, h2⟩ | ⟨_, _, _, h3⟩
    · cases q with
      | none => rfl
      | some q => simp [LimHttp.handle, h2 q rfl]
    · exact absurd (h3.symm.trans h) (by simp)
  | queryCounters q =>
    rcases query_cases q with ⟨_, h2⟩ | ⟨_, _, _, h3⟩
    · cases q with
      | none => rfl
      | some q => simp [LimHttp.handle, h2 q rfl]
    · exact absurd (h3.symm.trans h) (by simp)
  | matchRules m =>
    rcases match_cases m with ⟨_, h2⟩ | ⟨_, _, _, h3⟩
    · cases m with
      | none => rfl
      | some m => simp [LimHttp.handle, h2 m rfl]
    · exact absurd (h3.symm.trans h) (by simp)
  | matchOverrides n m =>
    rcases match_cases m with ⟨_, h2⟩ | ⟨_, _, _, h3⟩
    · cases m with
      | none => rfl
      | some m => simp [LimHttp.handle, h2 m rfl]
    · exact absurd (h3.symm.trans h) (by simp)
  | getRule _ => exact h.elim
  | deleteRule _ => exact h.elim
  | getOverride _ _ => exact h.elim
  | deleteOverride _ _ => exact h.elim

/-- A rule body without properties, one with a limit of -2, a counter with the wildcard. -/
example : Malformed (.createRule (some ⟨some (some [(sa, some (ki 1))], none), none⟩)) ∧
    Malformed (.createOverride sa (some ⟨some (some [(sa, some (ki 1))], some ⟨some (-2)⟩), none⟩)) ∧
    Malformed (.upsert (some ⟨some (some [(sa, some kany)], some (some 1))⟩)) := ⟨rfl, by simp [Malformed, limitAsked], by simp [Malformed, counterAsked]; decide⟩

/-- Every request with a decoded body is answered as the plain specification says and has its effect, in every state that requests of any kind lead to.
Missing for C82: the reads of the reported problems (`Tame`), which can panic or select other things (C20, C22, C75), and the states after such a panic
on the overrides of a rule. -/
theorem C82_answers_partial {s : Srv} {B : Int} (h : Reached s B) {e : LimHttp.Env} (hc : ValidChoice e.ch) {r : LimHttp.Req} (hw : WellTyped r)
    (ht : Tame r) (hB : B + amountOf r < 2 ^ 63) :
    ∃ s' o, LimHttp.handle s e r = (some s', o) ∧ Answered o ∧ SameReply o (specHandle (Limiter.abs s.lim) r).2 ∧
      Limiter.abs s'.lim = (specHandle (Limiter.abs s.lim) r).1 := by
  obtain ⟨s', o, h1, h2, h3, h4, _⟩ := (handle_good (reached_inv h).1 (reached_inv h).2 hc hw ht hB).ok
  exact ⟨s', o, h1, h2, h3, h4⟩

theorem amountOf_nonneg (r : LimHttp.Req) : 0 ≤ amountOf r := by
  cases r <;> simp only [amountOf] <;> (try split) <;> omega

theorem history_of {rs : List (LimHttp.Env × LimHttp.Req)} : ∀ {s : Srv} {B : Int}, LInv s.lim B → s.held = [] → (∀ x ∈ rs, ValidChoice x.1.ch ∧ WellTyped x.2 ∧ Tame x.2) →
    B + (rs.map (fun x => amountOf x.2)).sum < 2 ^ 63 →
    ∃ s' os, handleAll s rs = (some s', os) ∧ (∀ o ∈ os, Answered o) ∧ List.Forall₂ SameReply os (specAll (Limiter.abs s.lim) (rs.map (·.2))).2 ∧
      Limiter.abs s'.lim = (specAll (Limiter.abs s.lim) (rs.map (·.2))).1 := by
  induction rs with
  | nil => intro s B _ _ _ _; exact ⟨s, [], rfl, by simp, .nil, rfl⟩
  | cons x rs ih =>
    intro s B h hs hv hB
    obtain ⟨e, r⟩ := x
    have hn : 0 ≤ (rs.map (fun x => amountOf x.2)).sum := by
      clear ih hB hv
      induction rs with
      | nil => simp
      | cons x rs ih => have := amountOf_nonneg x.2; simp only [List.map_cons, List.sum_cons]; omega
    simp only [List.map_cons, List.sum_cons] at hB
    have hx : ValidChoice e.ch ∧ WellTyped r ∧ Tame r := hv (e, r) (by simp)
    obtain ⟨s1, o, h1, h2, h3, h4, h5, h6⟩ := (handle_good h hs hx.1 hx.2.1 hx.2.2 (by omega)).ok
    obtain ⟨s2, os, g1, g2, g3, g4⟩ := ih h5 (h6.trans hs) (fun y hy => hv y (by simp [hy])) (by omega)
    rw [h4] at g3 g4
    refine ⟨s2, o :: os, by simp only [handleAll, h1, g1], ?_, .cons h3 g3, g4⟩
    intro o' ho'
    rcases List.mem_cons.1 ho' with rfl | ho'
    · exact h2
    · exact g2 o' ho'

/-- A whole history: a service that has just started answers every request of it as the plain specification does (the same exceptions). -/
theorem C82_history_partial {rs : List (LimHttp.Env × LimHttp.Req)} (hv : ∀ x ∈ rs, ValidChoice x.1.ch ∧ WellTyped x.2 ∧ Tame x.2)
    (hB : (rs.map (fun x => amountOf x.2)).sum < 2 ^ 63) :
    ∃ s' os, handleAll Srv.init rs = (some s', os) ∧ (∀ o ∈ os, Answered o) ∧ List.Forall₂ SameReply os (specAll St.init (rs.map (·.2))).2 ∧
      Limiter.abs s'.lim = (specAll St.init (rs.map (·.2))).1 :=
  history_of (B := 0) linv_init rfl hv (by omega)

/-! ### Panics -/

/-- A match that needs at least two and allows at most one key-value. -/
def badMatch : MatchQuery Key := { kvs := [(sa, ⟨ki 1, ⟨1, 1024⟩⟩)], min := some 2, max := some 1 }
/-- `{"Or":[{}]}`. -/
def badQuery : Query Key := .mk none [.mk none [] [] true] [] true

theorem badMatch_valid : ValidMatch badMatch := ⟨by simp [badMatch], by simp [badMatch], by simp [badMatch, ValidTR, DataType.isGeneral, DataType.isAny]; decide⟩

theorem badQuery_none {V : Type} (t : ATree Key V) : t.queryAction badQuery = none := rfl

theorem badMatch_none {V : Type} {t : ATree Key V} (h : Assoc.Inv t) {sh} (hsh : ∀ l, (sh l).Perm l) : t.matchAction sh badMatch = none := by
  rcases matchAction_spec h badMatch_valid hsh with ⟨l, e, hn, _⟩ | ⟨e, _⟩
  · exact absurd ⟨by decide, by decide⟩ hn
  · exact e

/-- C82 is false of the code for reads that pass validation: these panic in every state, and the connection ends without an answer. -/
theorem C82_violated_reads_panic {s : Srv} {B : Int} (h : Reached s B) {e : LimHttp.Env} (hc : ValidChoice e.ch) :
    validQuery badQuery = true ∧ validMatch badMatch = true ∧ LimHttp.handle s e (.queryRules (some badQuery)) = (some s, .panicked) ∧
    LimHttp.handle s e (.queryCounters (some badQuery)) = (some s, .panicked) ∧ LimHttp.handle s e (.matchRules (some badMatch)) = (some s, .panicked) := by
  refine ⟨by decide, by decide, rfl, rfl, ?_⟩
  have h2 : validMatch badMatch = true := by decide
  simp only [LimHttp.handle, h2, if_true, matchRules, badMatch_none (reached_inv h).1.rinv hc.1]
  rfl

/-- C82 is false of the code in a worse way for overrides: such a read of the overrides of a rule that has any panics while it holds locks, and DeleteRule of
this rule never comes back, whatever happens in between. -/
theorem C82_violated_delete_stalls {s : Srv} {B : Int} (h : Reached s B) {e : LimHttp.Env} (hc : ValidChoice e.ch) {n : GoString} {r : Rule}
    (hr : ruleNamed (Limiter.abs s.lim) n = some r) (ho : r.overrides ≠ []) :
    ∃ s', LimHttp.handle s e (.matchOverrides n (some badMatch)) = (some s', .panicked) ∧
      LimHttp.handle s e (.queryOverrides n (some badQuery)) = (some s', .panicked) ∧ s'.lim = s.lim ∧
      ∀ e', LimHttp.handle s' e' (.deleteRule n) = (none, .stalls) := by
  have hI := (reached_inv h).1.toRInv
  have h1 : validQuery badQuery = true := by decide
  have h2 : validMatch badMatch = true := by decide
  rw [ruleNamed_eq hI, rule?_abs] at hr
  obtain ⟨i, hi, rfl⟩ := Option.map_eq_some_iff.1 hr
  have hid := (itemById_some hi).2
  simp only [absRule, ovs, hid] at ho
  cases hrel : rel s.lim.overrides (idStr (ruleNum s n)) with
  | none => rw [hrel] at ho; simp at ho
  | some t =>
    refine ⟨{ s with held := ruleNum s n :: s.held }, ?_, ?_, rfl, ?_⟩
    · simp only [LimHttp.handle, h2, if_true, readMatchOverrides, queryAction_id hI.rinv, hi, Option.toList_some, OTM.matchAction, onRelation,
        if_neg (idStr_ne (ruleNum s n)), hrel, badMatch_none (hI.oinv _ _ hrel) hc.1]
      rfl
    · simp only [LimHttp.handle, h1, if_true, readQueryOverrides, queryAction_id hI.rinv, hi, Option.toList_some, OTM.query, onRelation,
        if_neg (idStr_ne (ruleNum s n)), hrel, badQuery_none]
      rfl
    · intro e'
      have : ruleNum { s with held := ruleNum s n :: s.held } n = ruleNum s n := rfl
      simp only [LimHttp.handle, this, List.mem_cons, true_or, if_true]

/-! ### Example -/

/-- The first visits of everything. -/
def httpEnv : LimHttp.Env := ⟨{}, false⟩
/-- A rule for all values of `a` with a limit of 2. -/
def httpRule : LimHttp.Env × LimHttp.Req := (httpEnv, .createRule (some ⟨some (some [(sa, some kany)], some ⟨some 2⟩), none⟩))
/-- An override of it for a = 1 with a limit of 1. -/
def httpOverride : LimHttp.Env × LimHttp.Req := (httpEnv, .createOverride (idStr 0) (some ⟨some (some [(sa, some (ki 1))], some ⟨some 1⟩), none⟩))
/-- A rule for all values of `a` with a limit of 2, an override for a = 1 with a limit of 1, two increments, a request for an unknown rule, and reads. -/
def httpReqs : List (LimHttp.Env × LimHttp.Req) :=
  [httpRule, httpOverride,
   (httpEnv, .upsert (some ⟨some (some [(sa, some (ki 1))], some (some 1))⟩)),
   (httpEnv, .upsert (some ⟨some (some [(sa, some (ki 1))], some (some 1))⟩)),
   (httpEnv, .getRule sb), (httpEnv, .getOverride (idStr 0) (idStr 0)), (httpEnv, .queryOverrides (idStr 0) (some readQ2)),
   (httpEnv, .createRule none), (httpEnv, .matchRules (some readM))]

theorem httpReqs_ok : ∀ x ∈ httpReqs, ValidChoice x.1.ch ∧ WellTyped x.2 ∧ Tame x.2 := by
  intro x hx
  simp only [httpReqs, List.mem_cons, List.not_mem_nil, or_false] at hx
  rcases hx with rfl | rfl | rfl | rfl | rfl | rfl | rfl | rfl | rfl <;> refine ⟨noChoice_valid, ?_, ?_⟩ <;>
    simp only [httpRule, httpOverride, WellTyped, Tame, LimSpec.Int64] <;> first | trivial | decide +kernel | exact fun _ => readQ_good.2.1 | exact readQ_good.2.2.2

/-- Answers as short codes. -/
def httpCode : LimHttp.Reply → Nat
  | .done => 200 | .created _ => 201 | .one e => 2000 + e.limit.toNat | .list l => 3000 + l.length | .counters l => 4000 + l.length | .error c => c
  | .panicked => 0 | .stalls => 1

example : (httpReqs.map (fun x => amountOf x.2)).sum < 2 ^ 63 ∧
    (handleAll Srv.init httpReqs).2.map httpCode = [201, 201, 200, 409, 404, 2001, 3000, 400, 3001] := by decide +kernel

/-- The state after a request (`s` if it waits for ever). -/
def after (s : Srv) (x : LimHttp.Env × LimHttp.Req) : Srv := (LimHttp.handle s x.1 x.2).1.getD s

theorem reached_after {s : Srv} {B : Int} (h : Reached s B) {x : LimHttp.Env × LimHttp.Req} (hx : x ∈ httpReqs) (hB : B + amountOf x.2 < 2 ^ 63) :
    Reached (after s x) (B + amountOf x.2) := by
  obtain ⟨h1, h2, h3⟩ := httpReqs_ok x hx
  obtain ⟨s', o, e1, e2, _⟩ := C82_answers_partial h h1 h2 h3 hB
  have : after s x = s' := by simp [after, e1]
  rw [this]
  exact .step h h2 h1 e1 (fun _ => e2) hB

/-- A state with a rule that has an override meets the hypotheses of `C82_answers_partial` and `C82_violated_delete_stalls`. -/
example : ∃ s r, Reached s 0 ∧ ruleNamed (Limiter.abs s.lim) (idStr 0) = some r ∧ r.overrides ≠ [] := by
  have h1 := reached_after .init (x := httpRule) (by simp [httpReqs]) (by decide +kernel)
  have h2 := reached_after h1 (x := httpOverride) (by simp [httpReqs]) (by decide +kernel)
  generalize hs : after (after Srv.init httpRule) httpOverride = s at h2
  have h3 : Reached s 0 := h2
  have h4 : (ruleNamed (Limiter.abs s.lim) (idStr 0)).any (fun r => r.overrides.length == 1) = true := by rw [← hs]; decide +kernel
  obtain ⟨r, hr, ho⟩ := (Option.any_eq_true _ _).1 h4
  exact ⟨s, r, h3, hr, by intro e; rw [e] at ho; simp at ho⟩

end Willow.Props
