import Verif.Spec.LimiterHttp
import Verif.Proofs.Requests
import Verif.Props.LimiterReads
/-
Proofs for C82.
-/
namespace Willow.LimHttp
open Willow Willow.Assoc Willow.Spec Willow.OTM Willow.LimSpec Willow.Limiter Willow.Requests Willow.LimHttpSpec

/-! ### Validation -/

theorem validValue_any (v : Option Key) : validValue true v = v.isSome := by
  cases v with
  | none => rfl
  | some k => simp only [validValue, Option.isSome_some, decide_eq_true_eq]; exact typ_le_any k

theorem validValue_typed (v : Option Key) : validValue false v = (match v with | some k => !wild k | none => false) := by
  cases v with
  | none => rfl
  | some k =>
    simp only [validValue, wild, Bool.false_eq_true, if_false]
    rw [Bool.eq_iff_iff]
    simp only [decide_eq_true_eq, Bool.not_eq_true', decide_eq_false_iff_not]
    have := isGeneral_or_any k
    simp only [DataType.isGeneral, DataType.isAny, Bool.or_eq_true, beq_iff_eq] at this
    rcases this with h | h
    · rcases h with (((((((((((h | h) | h) | h) | h) | h) | h) | h) | h) | h) | h) | h) | h <;> rw [h] <;> decide
    · rw [h]; decide

theorem validKVs_any (kvs : RawKVs) : validKVs true kvs = (!kvs.isEmpty && kvs.all (fun kv => kv.2.isSome)) := by
  simp only [validKVs, validValue_any]

theorem validKVs_typed (kvs : RawKVs) :
    validKVs false kvs = (!kvs.isEmpty && kvs.all (fun kv => match kv.2 with | some k => !wild k | none => false)) := by
  simp only [validKVs, validValue_typed]

theorem kvsOf_typed {kvs : RawKVs} (hv : validKVs false kvs = true) : Typed (kvsOf kvs) := by
  rw [validKVs_typed] at hv
  simp only [Bool.and_eq_true, List.all_eq_true] at hv
  intro kv hkv
  obtain ⟨x, hx, e⟩ := List.mem_filterMap.1 hkv
  obtain ⟨k, hk, rfl⟩ := Option.map_eq_some_iff.1 e
  have := hv.2 x hx
  rw [hk] at this
  simpa using this

/-- The body of a rule or override. -/
theorem limit_cases (b : Option LimitBody) :
    (limitAsked b = none ∧ ∀ b', b = some b' → b'.validateSpecOnly = false) ∨
    ∃ kvs l st, b = some ⟨some (some kvs, some ⟨some l⟩), st⟩ ∧ (⟨some (some kvs, some ⟨some l⟩), st⟩ : LimitBody).validateSpecOnly = true ∧
      limitAsked b = some (kvsOf kvs, l) ∧ validKVs true kvs = true ∧ -1 ≤ l := by
  match b with
  | none => exact .inl ⟨rfl, by simp⟩
  | some ⟨none, _⟩ => exact .inl ⟨rfl, by rintro _ ⟨⟩; rfl⟩
  | some ⟨some (none, _), _⟩ => exact .inl ⟨rfl, by rintro _ ⟨⟩; rfl⟩
  | some ⟨some (some kvs, none), _⟩ => exact .inl ⟨rfl, by rintro _ ⟨⟩; rfl⟩
  | some ⟨some (some kvs, some ⟨none⟩), _⟩ => exact .inl ⟨rfl, by rintro _ ⟨⟩; simp [LimitBody.validateSpecOnly, LimitProps.validate]⟩
  | some ⟨some (some kvs, some ⟨some l⟩), st⟩ =>
    have e : (⟨some (some kvs, some ⟨some l⟩), st⟩ : LimitBody).validateSpecOnly = (!kvs.isEmpty && kvs.all (fun kv => kv.2.isSome) && decide (-1 ≤ l)) := by
      simp only [LimitBody.validateSpecOnly, LimitProps.validate, validKVs_any]
      congr 1
      rw [Bool.eq_iff_iff]; simp
    by_cases h : (!kvs.isEmpty && kvs.all (fun kv => kv.2.isSome) && decide (-1 ≤ l)) = true
    · refine .inr ⟨kvs, l, st, rfl, e.trans h, if_pos h, ?_, ?_⟩
      · rw [validKVs_any]; exact (Bool.and_eq_true_iff.1 h).1
      · simpa using (Bool.and_eq_true_iff.1 h).2
    · refine .inl ⟨if_neg h, ?_⟩
      rintro _ ⟨⟩
      rw [e]; simpa using h

/-- The body of an update. -/
theorem props_cases (p : Option LimitProps) :
    (propsAsked p = none ∧ ∀ p', p = some p' → p'.validate = false) ∨
    ∃ l, p = some ⟨some l⟩ ∧ (⟨some l⟩ : LimitProps).validate = true ∧ propsAsked p = some l ∧ -1 ≤ l := by
  match p with
  | none => exact .inl ⟨rfl, by simp⟩
  | some ⟨none⟩ => exact .inl ⟨rfl, by rintro _ ⟨⟩; rfl⟩
  | some ⟨some l⟩ =>
    by_cases h : -1 ≤ l
    · exact .inr ⟨l, rfl, by simp [LimitProps.validate, h], if_pos h, h⟩
    · exact .inl ⟨if_neg h, by rintro _ ⟨⟩; simp [LimitProps.validate]; omega⟩

/-- The body of a counter. -/
theorem counter_cases (b : Option CounterBody) :
    (counterAsked b = none ∧ ∀ b', b = some b' → b'.validateSpecOnly = false) ∨
    ∃ kvs c, b = some ⟨some (some kvs, some (some c))⟩ ∧ (⟨some (some kvs, some (some c))⟩ : CounterBody).validateSpecOnly = true ∧
      counterAsked b = some (kvsOf kvs, c) ∧ validKVs false kvs = true := by
  match b with
  | none => exact .inl ⟨rfl, by simp⟩
  | some ⟨none⟩ => exact .inl ⟨rfl, by rintro _ ⟨⟩; rfl⟩
  | some ⟨some (none, _)⟩ => exact .inl ⟨rfl, by rintro _ ⟨⟩; rfl⟩
  | some ⟨some (some kvs, none)⟩ => exact .inl ⟨rfl, by rintro _ ⟨⟩; rfl⟩
  | some ⟨some (some kvs, some none)⟩ => exact .inl ⟨rfl, by rintro _ ⟨⟩; rfl⟩
  | some ⟨some (some kvs, some (some c))⟩ =>
    have e : (⟨some (some kvs, some (some c))⟩ : CounterBody).validateSpecOnly =
        (!kvs.isEmpty && kvs.all (fun kv => match kv.2 with | some k => !wild k | none => false)) := validKVs_typed kvs
    by_cases h : (!kvs.isEmpty && kvs.all (fun kv => match kv.2 with | some k => !wild k | none => false)) = true
    · exact .inr ⟨kvs, c, rfl, e.trans h, if_pos h, (validKVs_typed kvs).trans h⟩
    · refine .inl ⟨if_neg h, ?_⟩
      rintro _ ⟨⟩
      rw [e]; simpa using h

/-- A query. -/
theorem query_cases (q : Option (Query Key)) :
    (queryAsked q = none ∧ ∀ q', q = some q' → validQuery q' = false) ∨ ∃ q', q = some q' ∧ validQuery q' = true ∧ queryAsked q = some q' := by
  match q with
  | none => exact .inl ⟨rfl, by simp⟩
  | some q =>
    by_cases h : validQuery q = true
    · exact .inr ⟨q, rfl, h, by simp [queryAsked, Option.filter, h]⟩
    · exact .inl ⟨by simp [queryAsked, Option.filter, h], by rintro _ ⟨⟩; simpa using h⟩

/-- A match. -/
theorem match_cases (m : Option (MatchQuery Key)) :
    (matchAsked m = none ∧ ∀ m', m = some m' → validMatch m' = false) ∨ ∃ m', m = some m' ∧ validMatch m' = true ∧ matchAsked m = some m' := by
  match m with
  | none => exact .inl ⟨rfl, by simp⟩
  | some m =>
    by_cases h : validMatch m = true
    · exact .inr ⟨m, rfl, h, by simp [matchAsked, Option.filter, h]⟩
    · exact .inl ⟨by simp [matchAsked, Option.filter, h], by rintro _ ⟨⟩; simpa using h⟩

theorem goodMatch {m : MatchQuery Key} (hv : validMatch m = true) (hd : (m.kvs.map (·.1)).Nodup) (ht : TameMatch m) : Props.GoodMatch m := by
  simp only [validMatch, Bool.and_eq_true, List.all_eq_true] at hv
  refine ⟨⟨?_, hd, fun r hr => ?_⟩, ht⟩
  · rintro e; rw [e] at hv; simp at hv
  · have := (hv.2 r hr).1
    simp only [TypeRestrictions.validate, Bool.and_eq_true, Bool.or_eq_true, Bool.not_eq_true', decide_eq_false_iff_not] at this
    exact ⟨this.1.1, this.1.2, Int.not_lt.1 this.2⟩

/-! ### Ids -/

theorem numOf_spec {fresh i : Nat} (h : i < fresh) (n : GoString) : (idStr i == n) = (i == numOf fresh n) := by
  rw [Bool.eq_iff_iff, beq_iff_eq, beq_iff_eq]
  unfold numOf
  by_cases hn : n ≠ [] ∧ n = idStr (n.length - 1)
  · rw [if_pos hn]
    constructor
    · intro e; rw [← e]; simp [idStr]
    · intro e; rw [e]; exact hn.2.symm
  · rw [if_neg hn]
    constructor
    · intro e; refine absurd ⟨?_, ?_⟩ hn
      · rw [← e]; exact idStr_ne i
      · rw [← e]; simp [idStr]
    · intro e; omega

theorem ruleNamed_eq {s : Srv} (h : RInv s.lim) (n : GoString) : ruleNamed (abs s.lim) n = (abs s.lim).rule? (ruleNum s n) := by
  unfold ruleNamed St.rule?
  have : ∀ l : List Rule, (∀ r ∈ l, r.id < s.lim.rules.next) →
      l.find? (fun r => idStr r.id == n) = l.find? (fun r => r.id == ruleNum s n) := by
    intro l
    induction l with
    | nil => intro _; rfl
    | cons a l ih =>
      intro hl
      simp only [List.find?_cons, numOf_spec (hl a (by simp)) n, ruleNum]
      split
      · rfl
      · exact ih fun r hr => hl r (by simp [hr])
  refine this _ fun r hr => ?_
  obtain ⟨i, hi, rfl⟩ := List.mem_map.1 hr
  exact h.rinv.fresh i hi

theorem overrideNamed_eq {s : Srv} (h : RInv s.lim) {i : Item Key Int} (n : GoString) :
    (absRule s.lim.overrides i).overrides.filter (fun x => idStr x.id != n) = (absRule s.lim.overrides i).overrides.filter (fun x => x.id != overrideNum s i.id n) ∧
    overrideNamed (absRule s.lim.overrides i) n = (absRule s.lim.overrides i).override? (overrideNum s i.id n) := by
  have key : ∀ x ∈ (absRule s.lim.overrides i).overrides, (idStr x.id == n) = (x.id == overrideNum s i.id n) := by
    intro x hx
    simp only [absRule, ovs] at hx
    unfold overrideNum
    cases hr : rel s.lim.overrides (idStr i.id) with
    | none => rw [hr] at hx; simp at hx
    | some t =>
      rw [hr] at hx
      obtain ⟨j, hj, rfl⟩ := List.mem_map.1 hx
      exact numOf_spec ((h.oinv _ _ hr).fresh j hj) n
  refine ⟨List.filter_congr fun x hx => by simp only [bne, key x hx], ?_⟩
  unfold overrideNamed Rule.override?
  generalize (absRule s.lim.overrides i).overrides = l at key
  induction l with
  | nil => rfl
  | cons a l ih =>
    simp only [List.find?_cons, key a (by simp)]
    split
    · rfl
    · exact ih fun r hr => key r (by simp [hr])

/-! ### Requests -/

/-- A request that is answered as in the specification. -/
structure Good (s : Srv) (B : Int) (e : LimHttp.Env) (r : LimHttp.Req) : Prop where
  ok : ∃ s' o, LimHttp.handle s e r = (some s', o) ∧ Answered o ∧ SameReply o (specHandle (abs s.lim) r).2 ∧ abs s'.lim = (specHandle (abs s.lim) r).1 ∧
    LInv s'.lim (B + amountOf r) ∧ s'.held = s.held

theorem SameReply.rfl' (o : LimHttp.Reply) : SameReply o o := by cases o <;> simp [SameReply]

theorem good_same {s : Srv} {B : Int} {e : LimHttp.Env} {r : LimHttp.Req} (h : LInv s.lim B) (ha : amountOf r = 0) {o : LimHttp.Reply} (hh : LimHttp.handle s e r = (some s, o))
    (ho : Answered o) (hs : SameReply o (specHandle (abs s.lim) r).2) (hst : (specHandle (abs s.lim) r).1 = abs s.lim) : Good s B e r :=
  ⟨s, o, hh, ho, hs, hst.symm, by rw [ha, Int.add_zero]; exact h, rfl⟩

/-- A request with a body that does not pass validation. -/
theorem good_bad {s : Srv} {B : Int} {e : LimHttp.Env} {r : LimHttp.Req} (h : LInv s.lim B) (ha : amountOf r = 0) (hh : LimHttp.handle s e r = (some s, .error 400))
    (hs : specHandle (abs s.lim) r = (abs s.lim, .error 400)) : Good s B e r :=
  good_same h ha hh trivial (by rw [hs]; exact SameReply.rfl' _) (by rw [hs])

/-- A request that is one of a history of the trees. -/
theorem good_step {s : Srv} {B : Int} {e : LimHttp.Env} {r : LimHttp.Req} (h : LInv s.lim B) {op : Limiter.Op Key} (hv : LimSpec.ValidOp op)
    (ha : amountOf r = amount op) (hB : B + amountOf r < 2 ^ 63) {f : Out Key → LimHttp.Reply} (hh : LimHttp.handle s e r = onTrees s f (Limiter.step s.lim op))
    (hs1 : (specStep (abs s.lim) op).1 = (specHandle (abs s.lim) r).1)
    (hs2 : ∀ out, LimSpec.Same out (specStep (abs s.lim) op).2 → Answered (f out) ∧ SameReply (f out) (specHandle (abs s.lim) r).2) : Good s B e r := by
  obtain ⟨st', out, e1, e2, e3, e4⟩ := sim_step h hv (by omega)
  rw [e1] at hh
  exact ⟨_, _, hh, (hs2 out e4).1, (hs2 out e4).2, e3.trans hs1, by rw [ha]; exact e2, rfl⟩

theorem same_eq {a b : Out Key} (h : LimSpec.Same a b) (hb : ∀ l, b ≠ .counters l) : a = b := by
  cases a <;> cases b <;> simp_all [LimSpec.Same]

theorem queryCounters_fst {st st' : State Key} {q : Query Key} {o} (h : Limiter.queryCounters st q = some (st', o)) : st' = st := by
  unfold Limiter.queryCounters at h
  split at h
  · cases h
  · cases h; rfl

theorem writes_free {s : Srv} (hs : s.held = []) (e : LimHttp.Env) (k : Option Srv × LimHttp.Reply) : writes s e k = k := by
  simp [writes, hs]

theorem rule?_some_id {w : LimSpec.St} {id : Nat} {r : Rule} (h : w.rule? id = some r) : r.id = id := by
  unfold St.rule? at h
  have := List.find?_some h
  simpa using this

theorem entry_valid {id : Nat} {kvs : KVs Key} {l : Int} (h1 : kvs ≠ []) (h2 : -1 ≤ l) : (⟨id, kvs, l⟩ : Entry Key).validate = true := by
  simp only [Entry.validate, Bool.and_eq_true, List.all_eq_true, decide_eq_true_eq, Bool.not_eq_true', List.isEmpty_eq_false_iff]
  exact ⟨⟨h1, fun kv _ => typ_le_any kv.2⟩, h2⟩

/-- Every request outside of the reported problems is answered as in the specification. -/
theorem handle_good {s : Srv} {B : Int} (h : LInv s.lim B) (hs : s.held = []) {e : LimHttp.Env} (hc : ValidChoice e.ch) {r : LimHttp.Req} (hw : WellTyped r)
    (ht : Tame r) (hB : B + amountOf r < 2 ^ 63) : Good s B e r := by
  cases r with
  | createRule b =>
    rcases limit_cases b with ⟨h1, h2⟩ | ⟨kvs, l, st, rfl, h2, h3, h4, h5⟩
    · refine good_bad h rfl ?_ (by simp [specHandle, h1, valid])
      cases b with
      | none => rfl
      | some b => simp [LimHttp.handle, h2 b rfl]
    · refine good_step h (op := .createRule (kvsOf kvs) l) ⟨Requests.kvsOf_valid h4 hw.1, h5, hw.2.2⟩ rfl hB (f := createdReply (kvsOf kvs) l) ?_ ?_ ?_
      · simp only [LimHttp.handle, h2, if_true, writes_free hs, Limiter.step]
      · simp only [specStep, specHandle, h3, valid]
        split <;> rfl
      · intro out ho
        simp only [specStep, specHandle, h3, valid] at ho ⊢
        split at ho
        · rename_i hx; rw [if_pos hx, same_eq ho (by simp)]; exact ⟨trivial, rfl⟩
        · rename_i hx; rw [if_neg hx, same_eq ho (by simp)]; exact ⟨trivial, rfl⟩
  | queryRules q =>
    rcases query_cases q with ⟨h1, h2⟩ | ⟨q', rfl, h2, h3⟩
    · refine good_bad h rfl ?_ (by simp [specHandle, h1, valid])
      cases q with
      | none => rfl
      | some q => simp [LimHttp.handle, h2 q rfl]
    · obtain ⟨l, e1, e2⟩ := Props.queryRules_inv h.toRInv (ht h2)
      refine good_same h rfl (o := .list l) (by simp [LimHttp.handle, h2, e1, readRules, readReply]) trivial ?_ (by simp [specHandle, h3, valid])
      simp only [specHandle, h3, valid]
      exact e2
  | matchRules m =>
    rcases match_cases m with ⟨h1, h2⟩ | ⟨m', rfl, h2, h3⟩
    · refine good_bad h rfl ?_ (by simp [specHandle, h1, valid])
      cases m with
      | none => rfl
      | some m => simp [LimHttp.handle, h2 m rfl]
    · obtain ⟨l, e1, e2⟩ := Props.matchRules_inv h.toRInv (goodMatch h2 hw ht) hc
      refine good_same h rfl (o := .list l) (by simp [LimHttp.handle, h2, e1, readRules, readReply]) trivial ?_ (by simp [specHandle, h3, valid])
      simp only [specHandle, h3, valid]
      exact e2
  | getRule n =>
    refine good_step h (op := .getRule (ruleNum s n)) trivial rfl hB (f := oneReply (ruleNum s n)) rfl ?_ ?_
    · simp only [specStep, specHandle, ruleNamed_eq h.toRInv]
      cases (abs s.lim).rule? (ruleNum s n) <;> rfl
    · intro out ho
      simp only [specStep, specHandle, ruleNamed_eq h.toRInv] at ho ⊢
      cases hr : (abs s.lim).rule? (ruleNum s n) with
      | none => rw [hr] at ho; rw [same_eq ho (by simp)]; exact ⟨trivial, rfl⟩
      | some r =>
        rw [hr] at ho
        rw [same_eq ho (by simp)]
        have hv : (⟨ruleNum s n, r.kvs, r.limit⟩ : Entry Key).validate = true := by
          obtain ⟨i, hi, rfl⟩ := List.mem_map.1 (List.mem_of_find?_eq_some hr)
          exact entry_valid ((h.rinv.valid hi).1) (h.rlim i hi).1
        simp only [oneReply, hv, if_true, there, showR, rule?_some_id hr]
        exact ⟨trivial, rfl⟩
  | updateRule n p =>
    rcases props_cases p with ⟨h1, h2⟩ | ⟨l, rfl, h2, h3, h4⟩
    · refine good_bad h rfl ?_ (by simp [specHandle, h1, valid])
      cases p with
      | none => rfl
      | some p => simp [LimHttp.handle, h2 p rfl]
    · refine good_step h (op := .updateRule (ruleNum s n) l) ⟨h4, hw.2⟩ rfl hB (f := plainReply) (by simp [LimHttp.handle, h2, Limiter.step]) ?_ ?_
      · simp only [specStep, specHandle, h3, valid, ruleNamed_eq h.toRInv]
        cases hr : (abs s.lim).rule? (ruleNum s n) with
        | none => rfl
        | some r => simp only [there, rule?_some_id hr]
      · intro out ho
        simp only [specStep, specHandle, h3, valid, ruleNamed_eq h.toRInv] at ho ⊢
        cases hr : (abs s.lim).rule? (ruleNum s n) with
        | none => rw [hr] at ho; rw [same_eq ho (by simp)]; exact ⟨trivial, rfl⟩
        | some r => rw [hr] at ho; rw [same_eq ho (by simp)]; exact ⟨trivial, rfl⟩
  | deleteRule n =>
    refine good_step h (op := .deleteRule e.ch (ruleNum s n)) hc rfl hB (f := plainReply) (by simp [LimHttp.handle, hs, writes_free hs, Limiter.step]) ?_ ?_
    · simp only [specStep, specHandle, ruleNamed_eq h.toRInv]
      cases hr : (abs s.lim).rule? (ruleNum s n) with
      | none => rfl
      | some r => simp only [there, rule?_some_id hr]
    · intro out ho
      simp only [specStep, specHandle, ruleNamed_eq h.toRInv] at ho ⊢
      cases hr : (abs s.lim).rule? (ruleNum s n) with
      | none => rw [hr] at ho; rw [same_eq ho (by simp)]; exact ⟨trivial, rfl⟩
      | some r => rw [hr] at ho; rw [same_eq ho (by simp)]; exact ⟨trivial, rfl⟩
  | createOverride n b =>
    rcases limit_cases b with ⟨h1, h2⟩ | ⟨kvs, l, st, rfl, h2, h3, h4, h5⟩
    · refine good_bad h rfl ?_ (by simp [specHandle, h1, valid])
      cases b with
      | none => rfl
      | some b => simp [LimHttp.handle, h2 b rfl]
    · refine good_step h (op := .createOverride (ruleNum s n) (kvsOf kvs) l) ⟨Requests.kvsOf_valid h4 hw.1, h5, hw.2.2⟩ rfl hB (f := createdReply (kvsOf kvs) l) ?_ ?_ ?_
      · simp only [LimHttp.handle, h2, if_true, writes_free hs, Limiter.step]
      · simp only [specStep, specHandle, h3, valid, ruleNamed_eq h.toRInv]
        cases hr : (abs s.lim).rule? (ruleNum s n) with
        | none => rfl
        | some r =>
          simp only [there, rule?_some_id hr]
          repeat' split
          all_goals rfl
      · intro out ho
        simp only [specStep, specHandle, h3, valid, ruleNamed_eq h.toRInv] at ho ⊢
        cases hr : (abs s.lim).rule? (ruleNum s n) with
        | none => rw [hr] at ho; rw [same_eq ho (by simp)]; exact ⟨trivial, rfl⟩
        | some r =>
          rw [hr] at ho
          simp only [there] at ho ⊢
          split at ho
          · rename_i hx; rw [if_pos hx, same_eq ho (by simp)]; exact ⟨trivial, rfl⟩
          · rename_i hx; rw [if_neg hx]
            split at ho
            · rename_i hx; rw [if_pos hx, same_eq ho (by simp)]; exact ⟨trivial, rfl⟩
            · rename_i hx; rw [if_neg hx]
              split at ho
              · rename_i hx; rw [if_pos hx, same_eq ho (by simp)]; exact ⟨trivial, rfl⟩
              · rename_i hx; rw [if_neg hx, same_eq ho (by simp)]; exact ⟨trivial, rfl⟩
  | queryOverrides n q =>
    rcases query_cases q with ⟨h1, h2⟩ | ⟨q', rfl, h2, h3⟩
    · refine good_bad h rfl ?_ (by simp [specHandle, h1, valid])
      cases q with
      | none => rfl
      | some q => simp [LimHttp.handle, h2 q rfl]
    · cases hi : s.lim.rules.itemById (ruleNum s n) with
      | none =>
        have e1 := (Props.readMissing_inv h.toRInv hi q' e.ch ⟨[], none, none⟩).1
        have hn : ruleNamed (abs s.lim) n = none := by rw [ruleNamed_eq h.toRInv, rule?_abs, hi]; rfl
        refine good_same h rfl (o := .error 404) (by simp [LimHttp.handle, h2, e1, readOverridesOf, readReply]) trivial ?_ ?_ <;>
          simp [specHandle, h3, valid, hn, there, SameReply]
      | some i =>
        obtain ⟨l, e1, e2⟩ := Props.queryOverrides_inv h.toRInv hi (ht h2)
        have hn : ruleNamed (abs s.lim) n = some (absRule s.lim.overrides i) := by rw [ruleNamed_eq h.toRInv, rule?_abs, hi]; rfl
        refine good_same h rfl (o := .list l) (by simp [LimHttp.handle, h2, e1, readOverridesOf, readReply]) trivial ?_ (by simp [specHandle, h3, valid, hn, there])
        simp only [specHandle, h3, valid, hn, there]
        rw [← (itemById_some hi).2] at e2
        exact e2
  | matchOverrides n m =>
    rcases match_cases m with ⟨h1, h2⟩ | ⟨m', rfl, h2, h3⟩
    · refine good_bad h rfl ?_ (by simp [specHandle, h1, valid])
      cases m with
      | none => rfl
      | some m => simp [LimHttp.handle, h2 m rfl]
    · cases hi : s.lim.rules.itemById (ruleNum s n) with
      | none =>
        have e1 := (Props.readMissing_inv h.toRInv hi (.mk none [] [] true) e.ch m').2
        have hn : ruleNamed (abs s.lim) n = none := by rw [ruleNamed_eq h.toRInv, rule?_abs, hi]; rfl
        refine good_same h rfl (o := .error 404) (by simp [LimHttp.handle, h2, e1, readOverridesOf, readReply]) trivial ?_ ?_ <;>
          simp [specHandle, h3, valid, hn, there, SameReply]
      | some i =>
        obtain ⟨l, e1, e2⟩ := Props.matchOverrides_inv h.toRInv hi (goodMatch h2 hw ht) hc
        have hn : ruleNamed (abs s.lim) n = some (absRule s.lim.overrides i) := by rw [ruleNamed_eq h.toRInv, rule?_abs, hi]; rfl
        refine good_same h rfl (o := .list l) (by simp [LimHttp.handle, h2, e1, readOverridesOf, readReply]) trivial ?_ (by simp [specHandle, h3, valid, hn, there])
        simp only [specHandle, h3, valid, hn, there]
        rw [← (itemById_some hi).2] at e2
        exact e2
  | getOverride n o =>
    refine good_step h (op := .getOverride (ruleNum s n) (overrideNum s (ruleNum s n) o)) trivial rfl hB (f := oneReply (overrideNum s (ruleNum s n) o)) rfl ?_ ?_
    · simp only [specStep, specHandle, ruleNamed_eq h.toRInv, rule?_abs]
      cases hi : s.lim.rules.itemById (ruleNum s n) with
      | none => rfl
      | some i =>
        rw [← (itemById_some hi).2]
        simp only [Option.map_some, there, (overrideNamed_eq h.toRInv o).2]
        cases (absRule s.lim.overrides i).override? (overrideNum s i.id o) <;> rfl
    · intro out ho
      simp only [specStep, specHandle, ruleNamed_eq h.toRInv, rule?_abs] at ho ⊢
      cases hi : s.lim.rules.itemById (ruleNum s n) with
      | none => rw [hi] at ho; rw [same_eq ho (by simp)]; exact ⟨trivial, rfl⟩
      | some i =>
        rw [hi] at ho
        rw [← (itemById_some hi).2] at ho ⊢
        simp only [Option.map_some, there, (overrideNamed_eq h.toRInv o).2] at ho ⊢
        cases hr : (absRule s.lim.overrides i).override? (overrideNum s i.id o) with
        | none => rw [hr] at ho; rw [same_eq ho (by simp)]; exact ⟨trivial, rfl⟩
        | some x =>
          rw [hr] at ho
          rw [same_eq ho (by simp)]
          have hx : x.id = overrideNum s i.id o := by
            have := List.find?_some hr; simpa using this
          have hv : (⟨overrideNum s i.id o, x.kvs, x.limit⟩ : Entry Key).validate = true := by
            have hm := List.mem_of_find?_eq_some hr
            simp only [absRule, ovs] at hm
            cases hrel : rel s.lim.overrides (idStr i.id) with
            | none => rw [hrel] at hm; simp at hm
            | some t =>
              rw [hrel] at hm
              obtain ⟨j, hj, rfl⟩ := List.mem_map.1 hm
              exact entry_valid (((h.oinv _ _ hrel).valid hj).1) (h.olim _ _ hrel j hj).1
          simp only [oneReply, hv, if_true, showO, hx]
          exact ⟨trivial, rfl⟩
  | updateOverride n o p =>
    rcases props_cases p with ⟨h1, h2⟩ | ⟨l, rfl, h2, h3, h4⟩
    · refine good_bad h rfl ?_ (by simp [specHandle, h1, valid])
      cases p with
      | none => rfl
      | some p => simp [LimHttp.handle, h2 p rfl]
    · refine good_step h (op := .updateOverride (ruleNum s n) (overrideNum s (ruleNum s n) o) l) ⟨h4, hw.2⟩ rfl hB (f := plainReply)
        (by simp [LimHttp.handle, h2, Limiter.step]) ?_ ?_
      · simp only [specStep, specHandle, h3, valid, ruleNamed_eq h.toRInv, rule?_abs]
        cases hi : s.lim.rules.itemById (ruleNum s n) with
        | none => rfl
        | some i =>
          rw [← (itemById_some hi).2]
          simp only [Option.map_some, there, (overrideNamed_eq h.toRInv o).2]
          cases hr : (absRule s.lim.overrides i).override? (overrideNum s i.id o) with
          | none => rfl
          | some x =>
            have hx : x.id = overrideNum s i.id o := by
              have := List.find?_some hr; simpa using this
            simp only [hx]; rfl
      · intro out ho
        simp only [specStep, specHandle, h3, valid, ruleNamed_eq h.toRInv, rule?_abs] at ho ⊢
        cases hi : s.lim.rules.itemById (ruleNum s n) with
        | none => rw [hi] at ho; rw [same_eq ho (by simp)]; exact ⟨trivial, rfl⟩
        | some i =>
          rw [hi] at ho
          rw [← (itemById_some hi).2] at ho
          simp only [Option.map_some, there, (overrideNamed_eq h.toRInv o).2] at ho ⊢
          cases hr : (absRule s.lim.overrides i).override? (overrideNum s i.id o) with
          | none => rw [hr] at ho; rw [same_eq ho (by simp)]; exact ⟨trivial, rfl⟩
          | some x => rw [hr] at ho; rw [same_eq ho (by simp)]; exact ⟨trivial, rfl⟩
  | deleteOverride n o =>
    refine good_step h (op := .deleteOverride (ruleNum s n) (overrideNum s (ruleNum s n) o)) trivial rfl hB (f := plainReply) rfl ?_ ?_
    · simp only [specStep, specHandle, ruleNamed_eq h.toRInv, rule?_abs]
      cases hi : s.lim.rules.itemById (ruleNum s n) with
      | none => rfl
      | some i =>
        rw [← (itemById_some hi).2]
        simp only [Option.map_some, there]
        unfold St.setRule
        simp only [LimSpec.St.mk.injEq, and_true]
        refine List.map_congr_left fun r hr => ?_
        obtain ⟨j, hj, rfl⟩ := List.mem_map.1 hr
        by_cases hij : j.id = i.id
        · have := item_eq h.rinv.ids hj (itemById_some hi).1 hij
          subst this
          simp only [absRule, beq_self_eq_true, if_true]
          have := (overrideNamed_eq h.toRInv (i := j) o).1
          simp only [absRule] at this
          rw [this]
        · have : ((absRule s.lim.overrides j).id == (absRule s.lim.overrides i).id) = false := by simpa [absRule] using hij
          have h2 : ((absRule s.lim.overrides j).id == i.id) = false := by simpa [absRule] using hij
          rw [this, h2]; simp
    · intro out ho
      simp only [specStep, specHandle, ruleNamed_eq h.toRInv] at ho ⊢
      cases hr : (abs s.lim).rule? (ruleNum s n) with
      | none => rw [hr] at ho; rw [same_eq ho (by simp)]; exact ⟨trivial, rfl⟩
      | some r => rw [hr] at ho; rw [same_eq ho (by simp)]; exact ⟨trivial, rfl⟩
  | upsert b =>
    rcases counter_cases b with ⟨h1, h2⟩ | ⟨kvs, c, rfl, h2, h3, h4⟩
    · refine good_bad h (by simp [amountOf, h1]) ?_ (by simp [specHandle, h1, valid])
      cases b with
      | none => rfl
      | some b => simp [LimHttp.handle, h2 b rfl]
    · refine good_step h (op := .upsert e.ch (kvsOf kvs) c) ⟨Requests.kvsOf_valid h4 hw.1, kvsOf_typed h4, hw.2, hc⟩ (by simp [amountOf, h3, amount]) hB (f := plainReply)
        (by simp [LimHttp.handle, h2, Limiter.step]) ?_ ?_
      · simp only [specStep, specHandle, h3, valid]
        repeat' split
        all_goals rfl
      · intro out ho
        simp only [specStep, specHandle, h3, valid] at ho ⊢
        split at ho
        · rename_i hx; rw [if_pos hx]
          split at ho
          · rename_i hx; rw [if_pos hx, same_eq ho (by simp)]; exact ⟨trivial, rfl⟩
          · rename_i hx; rw [if_neg hx, same_eq ho (by simp)]; exact ⟨trivial, rfl⟩
        · rename_i hx; rw [if_neg hx]
          split at ho
          · rename_i hx; rw [if_pos hx, same_eq ho (by simp)]; exact ⟨trivial, rfl⟩
          · rename_i hx; rw [if_neg hx, same_eq ho (by simp)]; exact ⟨trivial, rfl⟩
  | queryCounters q =>
    rcases query_cases q with ⟨h1, h2⟩ | ⟨q', rfl, h2, h3⟩
    · refine good_bad h rfl ?_ (by simp [specHandle, h1, valid])
      cases q with
      | none => rfl
      | some q => simp [LimHttp.handle, h2 q rfl]
    · refine good_step h (op := .queryCounters q') ?_ rfl hB (f := countersReply) (by simp [LimHttp.handle, h2, Limiter.step]) ?_ ?_
      · exact ht h2
      · simp only [specStep, specHandle, h3, valid]
      · intro out ho
        simp only [specStep, specHandle, h3, valid] at ho ⊢
        cases out <;> simp only [LimSpec.Same] at ho <;> try (exact absurd ho (by simp))
        rename_i l
        have hv : (l.all fun c => !c.1.isEmpty && c.1.all (fun kv => decide (KeyOps.typ kv.2 ≤ DataType.maxWithoutAny))) = true := by
          rw [List.all_eq_true]
          intro x hx
          obtain ⟨c, hc, rfl⟩ := List.mem_map.1 (ho.mem_iff.1 hx)
          obtain ⟨i, hi, rfl⟩ := List.mem_map.1 (List.mem_filter.1 hc).1
          simp only [absCounter, Bool.and_eq_true, List.all_eq_true, Bool.not_eq_true', List.isEmpty_eq_false_iff]
          refine ⟨(h.cinv.valid hi).1, fun kv hkv => ?_⟩
          have h1 := validValue_typed (some kv.2)
          have h2 := h.ctyp i hi kv hkv
          simp only [h2, Bool.not_false] at h1
          simpa [validValue] using h1
        simp only [countersReply, hv, if_true]
        exact ⟨trivial, ho⟩
  | setCounters b =>
    rcases counter_cases b with ⟨h1, h2⟩ | ⟨kvs, c, rfl, h2, h3, h4⟩
    · refine good_bad h (by simp [amountOf, h1]) ?_ (by simp [specHandle, h1, valid])
      cases b with
      | none => rfl
      | some b => simp [LimHttp.handle, h2 b rfl]
    · refine good_step h (op := .setCounter (kvsOf kvs) c) ⟨Requests.kvsOf_valid h4 hw.1, kvsOf_typed h4, hw.2⟩ (by simp [amountOf, h3, amount]) hB (f := plainReply)
        (by simp [LimHttp.handle, h2, Limiter.step]) ?_ ?_
      · simp only [specStep, specHandle, h3, valid]
        split <;> rfl
      · intro out ho
        simp only [specStep, specHandle, h3, valid] at ho ⊢
        split at ho
        · rename_i hx; rw [if_pos hx, same_eq ho (by simp)]; exact ⟨trivial, rfl⟩
        · rename_i hx; rw [if_neg hx, same_eq ho (by simp)]; exact ⟨trivial, rfl⟩

/-- A service that served any requests, with no read of overrides that panicked. -/
theorem reached_inv {s : Srv} {B : Int} (h : Reached s B) : LInv s.lim B ∧ s.held = [] := by
  induction h with
  | init => exact ⟨linv_init, rfl⟩
  | @step s s' B e r o _ hw hc hh ho hB ih =>
    obtain ⟨hl, hs⟩ := ih
    have same : ∀ {x : Option Srv × LimHttp.Reply}, x = (some s', o) → x.1 = some s → amountOf r = 0 → LInv s'.lim (B + amountOf r) ∧ s'.held = [] := by
      intro x hx hx1 ha
      rw [hx] at hx1
      obtain rfl : s' = s := by simpa using hx1
      rw [ha, Int.add_zero]; exact ⟨hl, hs⟩
    by_cases ht : Tame r
    · obtain ⟨s2, o2, e1, _, _, _, e5, e6⟩ := (handle_good hl hs hc hw ht hB).ok
      rw [e1] at hh
      obtain rfl : s2 = s' := by simpa using (congrArg Prod.fst hh)
      exact ⟨e5, e6.trans hs⟩
    · cases r with
      | queryRules q =>
        refine same hh ?_ rfl
        cases q with
        | none => rfl
        | some q =>
          simp only [LimHttp.handle]; split
          · cases Limiter.queryRules s.lim q <;> rfl
          · rfl
      | matchRules m =>
        refine same hh ?_ rfl
        cases m with
        | none => rfl
        | some m =>
          simp only [LimHttp.handle]; split
          · cases Limiter.matchRules s.lim e.ch m <;> rfl
          · rfl
      | queryOverrides n q =>
        refine same hh ?_ rfl
        cases q with
        | none => rfl
        | some q =>
          have ho := ho trivial
          simp only [LimHttp.handle] at hh ⊢; split
          · rename_i hv
            rw [if_pos hv] at hh
            cases hx : readQueryOverrides s.lim (ruleNum s n) q with
            | none => rw [hx] at hh; simp only [readOverridesOf, Prod.mk.injEq] at hh; rw [← hh.2] at ho; exact ho.elim
            | some a => rfl
          · rfl
      | matchOverrides n m =>
        refine same hh ?_ rfl
        cases m with
        | none => rfl
        | some m =>
          have ho := ho trivial
          simp only [LimHttp.handle] at hh ⊢; split
          · rename_i hv
            rw [if_pos hv] at hh
            cases hx : readMatchOverrides s.lim e.ch (ruleNum s n) m with
            | none => rw [hx] at hh; simp only [readOverridesOf, Prod.mk.injEq] at hh; rw [← hh.2] at ho; exact ho.elim
            | some a => rfl
          · rfl
      | queryCounters q =>
        refine same hh ?_ rfl
        cases q with
        | none => rfl
        | some q =>
          simp only [LimHttp.handle]; split
          · cases hx : Limiter.queryCounters s.lim q with
            | none => rfl
            | some p => obtain ⟨st', o'⟩ := p; rw [queryCounters_fst hx]; rfl
          · rfl
      | _ => exact absurd trivial ht

end Willow.LimHttp
