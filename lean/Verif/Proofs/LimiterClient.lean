import Verif.Proofs.Client
import Verif.Proofs.LimiterHttp
import Verif.Spec.LimiterClient
import Verif.Proofs.JsonString
/-
Lemmas for C83.
-/
namespace Willow.LimClient
open Willow Willow.Assoc Willow.Spec Willow.Limiter Willow.Requests Willow.Queue Willow.Client Willow.LimHttp Willow.LimHttpSpec Willow.LimClientSpec Willow.ClientSpec

/-! ### Routes -/

theorem pathOf_cons (a : GoString) (l : List GoString) : pathOf (a :: l) = 47 :: (a ++ pathOf l) := by simp [pathOf]

theorem segments_tail : ∀ (a : GoString) (l : List GoString), (∀ x ∈ a :: l, (47 : UInt8) ∉ x) → segments (a ++ pathOf l) = a :: l
  | a, [], h => by simpa [pathOf] using segments_one (h a (by simp))
  | a, b :: l, h => by
    rw [pathOf_cons, segments_cons (h a (by simp)), segments_tail b l (fun x hx => h x (by simp [hx]))]

theorem segments_pathOf (l : List GoString) (h : ∀ x ∈ l, (47 : UInt8) ∉ x) : segments (pathOf l) = [] :: l := by
  cases l with
  | nil => rfl
  | cons a l => rw [pathOf_cons, segments, if_pos rfl, segments_tail a l h]

theorem join_tail : ∀ (a : GoString) (l : List GoString), join (a :: l) = a ++ pathOf l
  | a, [] => by simp [join, pathOf]
  | a, b :: l => by rw [join, join_tail b l, pathOf_cons]

/-- The parameters of a route. -/
def Handler.Good : LimClient.Handler → Prop
  | .getRule n => n ≠ [] ∧ n ≠ sQuery ∧ n ≠ sMatch
  | .updateRule n | .deleteRule n | .createOverride n | .queryOverrides n | .matchOverrides n => n ≠ []
  | .getOverride n o => n ≠ [] ∧ o ≠ [] ∧ o ≠ sQuery ∧ o ≠ sMatch
  | .updateOverride n o | .deleteOverride n o => n ≠ [] ∧ o ≠ []
  | _ => True

theorem routeRule_inv {n : GoString} {m : Client.Method} {h : LimClient.Handler} (hn : n ≠ []) (hr : routeRule n m = some h) :
    h.segs = [sV1, sLimiter, sRules, n] ∧ h.method = m ∧ h.Good := by
  cases m <;> simp only [routeRule] at hr
  · split at hr
    · cases hr; simp_all [Handler.segs, Handler.method, Handler.Good]
    · split at hr <;> cases hr <;> simp_all [Handler.segs, Handler.method, Handler.Good]
  all_goals cases hr
  all_goals simp_all [Handler.segs, Handler.method, Handler.Good]

theorem routeOverride_inv {n o : GoString} {m : Client.Method} {h : LimClient.Handler} (hn : n ≠ []) (ho : o ≠ []) (hr : routeOverride n o m = some h) :
    h.segs = [sV1, sLimiter, sRules, n, sOverrides, o] ∧ h.method = m ∧ h.Good := by
  cases m <;> simp only [routeOverride] at hr
  · split at hr
    · cases hr; simp_all [Handler.segs, Handler.method, Handler.Good]
    · split at hr <;> cases hr <;> simp_all [Handler.segs, Handler.method, Handler.Good]
  all_goals cases hr
  all_goals simp_all [Handler.segs, Handler.method, Handler.Good]

theorem routeRules_inv {m : Client.Method} {l : List GoString} {h : LimClient.Handler} (hr : routeRules m l = some h) :
    h.segs = sV1 :: sLimiter :: sRules :: l ∧ h.method = m ∧ h.Good := by
  match l with
  | [] =>
    simp only [routeRules] at hr
    split at hr <;> cases hr
    simp_all [Handler.segs, Handler.method, Handler.Good]
  | [n] =>
    simp only [routeRules] at hr
    split at hr
    · cases hr
    · exact routeRule_inv ‹_› hr
  | [n, x] =>
    simp only [routeRules] at hr
    split at hr
    · cases hr
    · cases hr
      rename_i hx
      simp only [not_or, ne_eq, Classical.not_not] at hx
      simp [Handler.segs, Handler.method, Handler.Good, hx]
  | [n, x, o] =>
    simp only [routeRules] at hr
    split at hr
    · cases hr
    · rename_i hx
      simp only [not_or, ne_eq, Classical.not_not] at hx
      rw [hx.2.1]
      exact routeOverride_inv hx.1 hx.2.2 hr
  | _ :: _ :: _ :: _ :: _ => simp [routeRules] at hr

theorem routeCounters_inv {m : Client.Method} {l : List GoString} {h : LimClient.Handler} (hr : routeCounters m l = some h) :
    h.segs = sV1 :: sLimiter :: sCounters :: l ∧ h.method = m ∧ h.Good := by
  match l with
  | [] =>
    simp only [routeCounters] at hr
    split at hr <;> cases hr
    simp_all [Handler.segs, Handler.method, Handler.Good]
  | [x] =>
    simp only [routeCounters] at hr
    split at hr
    · cases hr; simp_all [Handler.segs, Handler.method, Handler.Good]
    · split at hr <;> cases hr
      simp_all [Handler.segs, Handler.method, Handler.Good]
  | _ :: _ :: _ => simp [routeCounters] at hr

theorem routeSegs_inv {m : Client.Method} {l : List GoString} {h : LimClient.Handler} (hr : routeSegs m l = some h) :
    h.segs = l ∧ h.method = m ∧ h.Good := by
  match l with
  | v :: k :: t :: rest =>
    simp only [routeSegs] at hr
    split at hr
    · rename_i hv
      obtain ⟨rfl, rfl⟩ := hv
      split at hr
      · rename_i e; subst e; exact routeRules_inv hr
      · split at hr
        · rename_i e; subst e; exact routeCounters_inv hr
        · cases hr
    · cases hr
  | [] => cases hr
  | [_] => cases hr
  | [_, _] => cases hr

theorem routeSegs_self {h : LimClient.Handler} (hg : h.Good) : routeSegs h.method h.segs = some h := by
  have c1 : sCounters ≠ sRules := by decide
  have c2 : sQuery ≠ [] := by decide
  have c3 : sMatch ≠ [] := by decide
  have c4 : sMatch ≠ sQuery := by decide
  have c5 : sSet ≠ sQuery := by decide
  cases h <;> simp only [Handler.Good] at hg <;>
    simp [Handler.segs, Handler.method, routeSegs, routeRules, routeCounters, routeRule, routeOverride, c1, c2, c3, c4, c5, hg]

theorem route_pathOf {m : Client.Method} {l : List GoString} (h : ∀ x ∈ l, (47 : UInt8) ∉ x) : LimClient.route m (pathOf l) = routeSegs m l := by
  unfold LimClient.route
  rw [segments_pathOf l h]

theorem route_inv {m : Client.Method} {p : GoString} {h : LimClient.Handler} (hr : LimClient.route m p = some h) :
    p = pathOf h.segs ∧ (∀ x ∈ h.segs, (47 : UInt8) ∉ x) ∧ h.method = m ∧ h.Good := by
  unfold LimClient.route at hr
  split at hr
  · rename_i l e
    obtain ⟨h1, h2, h3⟩ := routeSegs_inv hr
    refine ⟨?_, ?_, h2, h3⟩
    · have := join_segments p
      rw [e, join_tail, List.nil_append] at this
      rw [h1, this]
    · intro x hx
      exact segments_no_slash p x (by rw [e]; rw [h1] at hx; simp [hx])
  · cases hr

/-- The bytes of a URL that mean themselves. -/
def Clear (b : UInt8) : Prop := isCtl b = false ∧ b ≠ 35 ∧ b ≠ 37 ∧ b ≠ 63

theorem plain_iff {n : GoString} : Plain n ↔ n ≠ [] ∧ (47 : UInt8) ∉ n ∧ ∀ b ∈ n, Clear b := by
  constructor
  · intro h
    refine ⟨h.1, fun hm => (h.2 _ hm).2.2.2.2.1 rfl, fun b hb => ?_⟩
    obtain ⟨h1, h2, h3, h4, h5, h6⟩ := h.2 b hb
    exact ⟨by simp [isCtl, h2]; omega, h3, h4, h6⟩
  · intro ⟨h1, h2, h3⟩
    refine ⟨h1, fun b hb => ?_⟩
    obtain ⟨h4, h5, h6, h7⟩ := h3 b hb
    simp only [isCtl, Bool.or_eq_false_iff, decide_eq_false_iff_not, beq_eq_false_iff_ne, ne_eq] at h4
    exact ⟨by omega, h4.2, h5, h6, by rintro rfl; exact h2 hb, h7⟩

theorem pathOf_clear {l : List GoString} : (∀ b ∈ pathOf l, Clear b) ↔ ∀ x ∈ l, ∀ b ∈ x, Clear b := by
  constructor
  · intro h x hx b hb
    exact h b (by simp only [pathOf, List.mem_flatMap]; exact ⟨x, hx, by simp [hb]⟩)
  · intro h b hb
    simp only [pathOf, List.mem_flatMap, List.mem_cons] at hb
    obtain ⟨x, hx, rfl | hb⟩ := hb
    · exact ⟨by decide, by decide, by decide, by decide⟩
    · exact h x hx b hb

/-- A URL reaches the handler it is made for iff all its parts mean themselves. -/
theorem reached_iff {h2 : Bool} {h : LimClient.Handler} :
    LimClient.reached h2 h.method (pathOf h.segs) = some h ↔ (∀ x ∈ h.segs, (47 : UInt8) ∉ x ∧ ∀ b ∈ x, Clear b) ∧ h.Good := by
  constructor
  · intro hr
    unfold LimClient.reached at hr
    split at hr
    · cases hr
    · rename_i p hp
      obtain ⟨rfl, h1, _, h3⟩ := route_inv hr
      exact ⟨fun x hx => ⟨h1 x hx, pathOf_clear.1 (arrives_self hp) x hx⟩, h3⟩
  · intro ⟨h1, h3⟩
    unfold LimClient.reached
    rw [arrives_plain h2 (pathOf_clear.2 (fun x hx => (h1 x hx).2))]
    show LimClient.route _ _ = _
    rw [route_pathOf (fun x hx => (h1 x hx).1), routeSegs_self h3]

theorem const_plain : (∀ x ∈ [sV1, sLimiter, sRules, sOverrides, sCounters, sQuery, sMatch, sSet], Plain x) ∧
    ∀ n, Reserved n ↔ n = sQuery ∨ n = sMatch := by
  refine ⟨by decide, fun n => Iff.rfl⟩

theorem reached_names {h2 : Bool} {c : LimClient.Call} :
    LimClient.reached h2 c.handler.method (pathOf c.handler.segs) = some c.handler ↔ NamesOk c := by
  rw [reached_iff]
  obtain ⟨hc, hr⟩ := const_plain
  simp only [List.mem_cons, List.not_mem_nil, or_false, forall_eq_or_imp, forall_eq, plain_iff] at hc
  obtain ⟨⟨_, a1⟩, ⟨_, a2⟩, ⟨_, a3⟩, ⟨_, a4⟩, ⟨_, a5⟩, ⟨_, a6⟩, ⟨_, a7⟩, ⟨_, a8⟩⟩ := hc
  cases c <;> simp only [Call.handler, Handler.segs, Handler.Good, NamesOk, List.mem_cons, List.not_mem_nil, or_false, forall_eq_or_imp, forall_eq,
    plain_iff, hr, not_or, a1, a2, a3, a4, a5, a6, a7, a8, and_true, ne_eq]
  all_goals first | trivial | grind

/-! ### Bodies -/

theorem keyJson_iff (k : GoString) : keyJson k = k ↔ ValidUtf8 k := by
  rw [keyJson, jsonUnquote_jsonQuote]
  exact repair_iff_valid k

theorem lastWins_length {A : Type} : ∀ (l : List (GoString × A)), (lastWins l).length ≤ l.length ∧ ((lastWins l).length = l.length → lastWins l = l)
  | [] => by simp [lastWins]
  | x :: l => by
    have ih := lastWins_length l
    rw [lastWins]
    split
    · simp only [List.length_cons]; exact ⟨by omega, by omega⟩
    · simp only [List.length_cons, Nat.add_right_cancel_iff]
      exact ⟨by omega, fun h => by rw [ih.2 h]⟩

theorem lastWins_nodup {A : Type} : ∀ {l : List (GoString × A)}, (l.map (·.1)).Nodup → lastWins l = l
  | [], _ => rfl
  | x :: l, h => by
    simp only [List.map_cons, List.nodup_cons, List.mem_map, not_exists, not_and] at h
    rw [lastWins, lastWins_nodup h.2]
    refine if_neg ?_
    simp only [List.any_eq_true, beq_iff_eq, not_exists, not_and]
    exact h.1

theorem kvsJson_iff {A : Type} {l : List (GoString × A)} (h : (l.map (·.1)).Nodup) : kvsJson l = l ↔ KeysOk l := by
  constructor
  · intro e x hx
    have hlen := lastWins_length (l.map (fun kv => (keyJson kv.1, kv.2)))
    have e2 := hlen.2 (by rw [show lastWins (l.map fun kv => (keyJson kv.1, kv.2)) = l from e]; simp)
    rw [show lastWins (l.map fun kv => (keyJson kv.1, kv.2)) = l from e] at e2
    obtain ⟨i, hi, rfl⟩ := List.mem_iff_getElem.1 hx
    have e3 : (l.map (fun kv => (keyJson kv.1, kv.2)))[i]'(by simpa using hi) = l[i] := by congr 1; exact e2.symm
    rw [List.getElem_map] at e3
    exact (keyJson_iff _).1 (congrArg Prod.fst e3)
  · intro hk
    have e1 : l.map (fun kv => (keyJson kv.1, kv.2)) = l := by
      conv => rhs; rw [← List.map_id l]
      exact List.map_congr_left (fun x hx => by rw [(keyJson_iff x.1).2 (hk x hx)]; rfl)
    rw [kvsJson, e1, lastWins_nodup h]

theorem selJson_iff {x : Selection Key} (h : (x.kvs.map (·.1)).Nodup) : selJson x = x ↔ KeysOk x.kvs := by
  rw [← kvsJson_iff h]
  constructor
  · intro e; exact congrArg Selection.kvs e
  · intro e; simp only [selJson, e]

mutual
theorem queryJson_iff : ∀ {q : Query Key}, everywhere (fun s => (s.kvs.map (·.1)).Nodup) (fun _ => True) q → (queryJson q = q ↔ QueryOk q)
  | .mk sel or and nl, h => by
    have h1 := queriesJson_iff h.2.1
    have h2 := queriesJson_iff h.2.2
    simp only [queryJson, Query.mk.injEq, QueryOk, everywhere, h1, h2, NoEmptyLists]
    have h3 : sel.map selJson = sel ↔ ∀ s, sel = some s → KeysOk s.kvs := by
      cases sel with
      | none => simp
      | some x => simp [selJson_iff (h.1 x rfl)]
    rw [h3]
    have h4 : (nl || or.isEmpty && and.isEmpty) = nl ↔ (or = [] → and = [] → nl = true) := by
      cases nl <;> simp
    rw [h4]
    simp only [and_assoc]
theorem queriesJson_iff : ∀ {l : List (Query Key)}, everywhereL (fun s => (s.kvs.map (·.1)).Nodup) (fun _ => True) l →
    (queriesJson l = l ↔ everywhereL (fun s => KeysOk s.kvs) NoEmptyLists l)
  | [], _ => by simp [queriesJson, everywhereL]
  | q :: qs, h => by
    have h1 := queryJson_iff h.2.1
    have h2 := queriesJson_iff h.2.2
    simp only [queriesJson, List.cons.injEq, everywhereL, h1, h2, QueryOk]
    grind
end

theorem matchJson_iff {m : MatchQuery Key} (h : (m.kvs.map (·.1)).Nodup) : matchJson m = m ↔ KeysOk m.kvs := by
  rw [← kvsJson_iff h]
  constructor
  · intro e; exact congrArg MatchQuery.kvs e
  · intro e; simp only [matchJson, e]

theorem limitJson_iff {b : LimitBody} (h : ∀ kvs p, b.spec = some (some kvs, p) → (kvs.map (·.1)).Nodup) :
    limitJson b = b ↔ ∀ kvs p, b.spec = some (some kvs, p) → KeysOk kvs := by
  match b, h with
  | ⟨some (some kvs, p), st⟩, h => simp [limitJson, kvsJson_iff (h kvs p rfl)]
  | ⟨some (none, p), st⟩, _ => simp [limitJson]
  | ⟨none, st⟩, _ => simp [limitJson]

theorem counterJson_iff {b : CounterBody} (h : ∀ kvs p, b.spec = some (some kvs, p) → (kvs.map (·.1)).Nodup) :
    counterJson b = b ↔ ∀ kvs p, b.spec = some (some kvs, p) → KeysOk kvs := by
  match b, h with
  | ⟨some (some kvs, p)⟩, h => simp [counterJson, kvsJson_iff (h kvs p rfl)]
  | ⟨some (none, p)⟩, _ => simp [counterJson]
  | ⟨none⟩, _ => simp [counterJson]

end Willow.LimClient
