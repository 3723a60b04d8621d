import Verif.Model.LimiterReads
import Verif.Props.Limiter
/-
Property C75: reading rules and overrides.

The rules and overrides that should be there are those of the plain specification of the limiter (`LimSpec.specRun`, C40).
-/
namespace Willow.Props
open Assoc Spec OTM LimSpec Limiter

/-- A rule as an answer shows it. -/
def showRule (r : Rule) : Entry Key := ⟨r.id, r.kvs, r.limit⟩
/-- An override as an answer shows it. -/
def showOverride (o : Override) : Entry Key := ⟨o.id, o.kvs, o.limit⟩
/-- An entry satisfies a query. -/
def Sat (q : Query Key) (e : Entry Key) : Bool := satisfies q (⟨e.id, e.kvs, ()⟩ : Item Key Unit)
/-- Queries outside the reported problems of C20. -/
def GoodQuery (q : Query Key) : Prop := everywhere (fun s => ValidSel s ∧ SelExact s) Asks q ∧ (IsEmptyQuery q ∨ Asks q)
/-- Matches that pass validation and have consistent bounds (C22). -/
def GoodMatch (mq : MatchQuery Key) : Prop := ValidMatch mq ∧ (mq.min.getD 0 ≤ mq.max.getD (-1) ∨ mq.max.getD (-1) = -1)
/-- The answer consists of exactly these entries, each once, in some order. -/
def Answers (a : Option (RAns Key)) (l : List (Entry Key)) : Prop := ∃ l', a = some (.found l') ∧ l'.Perm l

/-- The stored rules after a history are those of the specification, overflowing counters or not. -/
theorem rules_of_run {ops : List (Limiter.Op Key)} : ∀ {st st' : State Key} {s : LimSpec.St} {outs}, RInv st →
    (∀ op ∈ ops, LimSpec.ValidOp op) → (Limiter.abs st).rules = s.rules → (Limiter.abs st).nextId = s.nextId → Limiter.run st ops = some (st', outs) →
    RInv st' ∧ (Limiter.abs st').rules = (specRun s ops).1.rules := by
  induction ops with
  | nil => intro st st' s outs h _ hr _ e; cases e; exact ⟨h, hr⟩
  | cons op ops ih =>
    intro st st' s outs h hv hr hn e
    obtain ⟨st1, out, e1, h1, h2, h3, _⟩ := any_step h (hv op (by simp))
    simp only [Limiter.run, e1] at e
    cases hrun : Limiter.run st1 ops with
    | none => simp [hrun] at e
    | some p =>
      obtain ⟨st2, outs2⟩ := p
      simp only [hrun, Option.some.injEq, Prod.mk.injEq] at e
      obtain ⟨rfl, _⟩ := e
      have key : (specStep (Limiter.abs st) op).1.rules = (specStep s op).1.rules ∧
          (specStep (Limiter.abs st) op).1.nextId = (specStep s op).1.nextId := by
        revert hr hn
        generalize Limiter.abs st = a
        intro hr hn
        obtain ⟨ar, an, ac⟩ := a
        obtain ⟨sr, sn, sc⟩ := s
        simp only at hr hn
        subst hr hn
        by_cases ho : OnRules op
        · have := specStep_counters (st := ⟨ar, an, ac⟩) ho sc
          simp only at this
          rw [this]; exact ⟨rfl, rfl⟩
        · cases op <;> simp only [OnRules, not_true_eq_false] at ho <;> simp only [specStep] <;> grind
      exact ih h1 (fun op' ho => hv op' (by simp [ho])) (h2.trans key.1) (h3.trans key.2) hrun

theorem readAnswer_ok {l : List (Entry Key)} (h : ∀ e ∈ l, e.kvs ≠ [] ∧ ValidLimit e.limit) : readAnswer l = .found l := by
  refine if_pos (List.all_eq_true.mpr fun e he => ?_)
  have := h e he
  simp only [Entry.validate, Bool.and_eq_true, List.all_eq_true, decide_eq_true_eq, Bool.not_eq_true', List.isEmpty_eq_false_iff]
  exact ⟨⟨this.1, fun kv _ => typ_le_any kv.2⟩, this.2.1⟩

theorem rule_shown {st : State Key} (h : RInv st) {i : Item Key Int} (hi : i ∈ st.rules.items) :
    (ruleEntry i).kvs ≠ [] ∧ ValidLimit (ruleEntry i).limit := ⟨(h.rinv.valid hi).1, h.rlim i hi⟩

theorem override_shown {st : State Key} (h : RInv st) {b : GoString} {t : ATree Key (OItem Key Int)} (ht : rel st.overrides b = some t)
    {j : Item Key (OItem Key Int)} (hj : j ∈ t.items) :
    overrideEntry j.value = ⟨j.id, j.kvs, j.value.value⟩ ∧ (overrideEntry j.value).kvs ≠ [] ∧ ValidLimit (overrideEntry j.value).limit := by
  have tg := h.otag _ _ ht j hj
  have e : overrideEntry j.value = ⟨j.id, j.kvs, j.value.value⟩ := by simp only [overrideEntry, tg.2.1, tg.2.2.1]
  exact ⟨e, by rw [e]; exact ((h.oinv _ _ ht).valid hj).1, by rw [e]; exact h.olim _ _ ht j hj⟩

/-- A query of the rules, in any state that satisfies the invariant. -/
theorem queryRules_inv {st : State Key} (h : RInv st) {q : Query Key} (hq : GoodQuery q) :
    Answers (queryRules st q) (((Limiter.abs st).rules.map showRule).filter (Sat q)) := by
  obtain ⟨l, e, hp⟩ := queryAction_spec h.rinv hq.1 hq.2
  refine ⟨l.map ruleEntry, ?_, ?_⟩
  · simp only [queryRules, e]
    rw [readAnswer_ok]
    intro x hx
    obtain ⟨i, hi, rfl⟩ := List.mem_map.mp hx
    exact rule_shown h (List.mem_filter.mp (hp.mem_iff.mp hi)).1
  · refine (hp.map ruleEntry).trans (List.Perm.of_eq ?_)
    simp only [Limiter.abs, List.map_map, List.filter_map]
    rfl

/-- A query of the rules answers with exactly the rules that satisfy it, each once, with its limit, and the service can always send
them.  Missing for C75: the queries of C20's counterexamples, which also select rules they should not, or crash. -/
theorem C75_query_rules_partial {ops : List (Limiter.Op Key)} (hv : ∀ op ∈ ops, LimSpec.ValidOp op) {st : State Key} {outs}
    (hr : Limiter.run State.init ops = some (st, outs)) {q : Query Key} (hq : GoodQuery q) :
    Answers (queryRules st q) (((specRun St.init ops).1.rules.map showRule).filter (Sat q)) := by
  obtain ⟨h, hs⟩ := rules_of_run (s := St.init) linv_init.toRInv hv rfl rfl hr
  rw [← hs]
  exact queryRules_inv h hq

/-- A match of the rules, in any state that satisfies the invariant. -/
theorem matchRules_inv {st : State Key} (h : RInv st) {mq : MatchQuery Key} (hq : GoodMatch mq) {ch : Choice Key} (hc : ValidChoice ch) :
    Answers (matchRules st ch mq) (((Limiter.abs st).rules.map showRule).filter (fun e => covered mq e.kvs)) := by
  rcases matchAction_spec h.rinv hq.1 hc.1 with ⟨l, e, _, hp⟩ | ⟨_, h1, h2⟩
  · refine ⟨l.map ruleEntry, ?_, ?_⟩
    · simp only [matchRules, e]
      rw [readAnswer_ok]
      intro x hx
      obtain ⟨i, hi, rfl⟩ := List.mem_map.mp hx
      exact rule_shown h (List.mem_filter.mp (hp.mem_iff.mp hi)).1
    · refine (hp.map ruleEntry).trans (List.Perm.of_eq ?_)
      simp only [Limiter.abs, List.map_map, List.filter_map]
      rfl
  · have := hq.2; omega

/-- A match of the rules answers with exactly the rules covered by the request.  Missing for C75: a minimum above the maximum (C22). -/
theorem C75_match_rules_partial {ops : List (Limiter.Op Key)} (hv : ∀ op ∈ ops, LimSpec.ValidOp op) {st : State Key} {outs}
    (hr : Limiter.run State.init ops = some (st, outs)) {mq : MatchQuery Key} (hq : GoodMatch mq) {ch : Choice Key} (hc : ValidChoice ch) :
    Answers (matchRules st ch mq) (((specRun St.init ops).1.rules.map showRule).filter (fun e => covered mq e.kvs)) := by
  obtain ⟨h, hs⟩ := rules_of_run (s := St.init) linv_init.toRInv hv rfl rfl hr
  rw [← hs]
  exact matchRules_inv h hq hc

/-- Reads of the overrides of a rule that is not there, in any state that satisfies the invariant. -/
theorem readMissing_inv {st : State Key} (h : RInv st) {id : Nat} (hi : st.rules.itemById id = none) (q : Query Key) (ch : Choice Key) (mq : MatchQuery Key) :
    readQueryOverrides st id q = some .notFound ∧ readMatchOverrides st ch id mq = some .notFound := by
  simp only [readQueryOverrides, readMatchOverrides, queryAction_id h.rinv, hi, Option.toList_none, and_self]

/-- Reads of the overrides of a rule that does not exist are answered with 404, whatever is asked. -/
theorem C75_missing_rule {ops : List (Limiter.Op Key)} (hv : ∀ op ∈ ops, LimSpec.ValidOp op) {st : State Key} {outs}
    (hr : Limiter.run State.init ops = some (st, outs)) {id : Nat} (hid : (specRun St.init ops).1.rule? id = none) (q : Query Key)
    (ch : Choice Key) (mq : MatchQuery Key) :
    readQueryOverrides st id q = some .notFound ∧ readMatchOverrides st ch id mq = some .notFound := by
  obtain ⟨h, hs⟩ := rules_of_run (s := St.init) linv_init.toRInv hv rfl rfl hr
  have hi : st.rules.itemById id = none := by
    have e : (Limiter.abs st).rule? id = none := by unfold St.rule? at hid ⊢; rw [hs]; exact hid
    rw [rule?_abs] at e
    simpa using e
  exact readMissing_inv h hi q ch mq

/-- The stored item and relation of a rule of the specification. -/
theorem rule_item {ops : List (Limiter.Op Key)} {st : State Key} {id : Nat} {r : Rule}
    (hs : (Limiter.abs st).rules = (specRun St.init ops).1.rules) (hid : (specRun St.init ops).1.rule? id = some r) :
    ∃ i, st.rules.itemById id = some i ∧ i.id = id ∧ r.overrides = ovs st.overrides id := by
  have e : (Limiter.abs st).rule? id = some r := by unfold St.rule? at hid ⊢; rw [hs]; exact hid
  rw [rule?_abs] at e
  obtain ⟨i, hi, rfl⟩ := Option.map_eq_some_iff.mp e
  obtain ⟨_, h2⟩ := itemById_some hi
  exact ⟨i, hi, h2, by rw [← h2]; rfl⟩

/-- A query of the overrides of a rule, in any state that satisfies the invariant. -/
theorem queryOverrides_inv {st : State Key} (h : RInv st) {id : Nat} {i : Item Key Int} (hi : st.rules.itemById id = some i) {q : Query Key} (hq : GoodQuery q) :
    Answers (readQueryOverrides st id q) (((ovs st.overrides id).map showOverride).filter (Sat q)) := by
  obtain ⟨_, rfl⟩ := itemById_some hi
  simp only [readQueryOverrides, queryAction_id h.rinv, hi, Option.toList_some, OTM.query, onRelation, if_neg (idStr_ne i.id)]
  cases hrel : rel st.overrides (idStr i.id) with
  | none => exact ⟨[], rfl, by simp [ovs, hrel]⟩
  | some t =>
    obtain ⟨l, e, hp⟩ := queryAction_spec (h.oinv _ _ hrel) hq.1 hq.2
    have hm : ∀ j ∈ l, j ∈ t.items := fun j hj => (List.mem_filter.mp (hp.mem_iff.mp hj)).1
    simp only [e, Option.map_some, readOverrides, List.map_map]
    refine ⟨_, by
      rw [readAnswer_ok]
      intro x hx
      obtain ⟨j, hj, rfl⟩ := List.mem_map.mp hx
      exact (override_shown h hrel (hm j hj)).2, ?_⟩
    have e2 : l.map (overrideEntry ∘ fun x => x.value) = l.map (fun j => (⟨j.id, j.kvs, j.value.value⟩ : Entry Key)) :=
      List.map_congr_left fun j hj => (override_shown h hrel (hm j hj)).1
    rw [e2]
    refine (hp.map _).trans (List.Perm.of_eq ?_)
    simp only [ovs, hrel, List.map_map, List.filter_map]
    rfl

/-- A query of the overrides of a rule answers with exactly the overrides of this rule that satisfy it (the same exceptions). -/
theorem C75_query_overrides_partial {ops : List (Limiter.Op Key)} (hv : ∀ op ∈ ops, LimSpec.ValidOp op) {st : State Key} {outs}
    (hr : Limiter.run State.init ops = some (st, outs)) {id : Nat} {r : Rule} (hid : (specRun St.init ops).1.rule? id = some r)
    {q : Query Key} (hq : GoodQuery q) :
    Answers (readQueryOverrides st id q) ((r.overrides.map showOverride).filter (Sat q)) := by
  obtain ⟨h, hs⟩ := rules_of_run (s := St.init) linv_init.toRInv hv rfl rfl hr
  obtain ⟨i, hi, _, ho⟩ := rule_item hs hid
  rw [ho]
  exact queryOverrides_inv h hi hq

/-- A match of the overrides of a rule, in any state that satisfies the invariant. -/
theorem matchOverrides_inv {st : State Key} (h : RInv st) {id : Nat} {i : Item Key Int} (hi : st.rules.itemById id = some i) {mq : MatchQuery Key}
    (hq : GoodMatch mq) {ch : Choice Key} (hc : ValidChoice ch) :
    Answers (readMatchOverrides st ch id mq) (((ovs st.overrides id).map showOverride).filter (fun e => covered mq e.kvs)) := by
  obtain ⟨_, rfl⟩ := itemById_some hi
  simp only [readMatchOverrides, queryAction_id h.rinv, hi, Option.toList_some, OTM.matchAction, onRelation, if_neg (idStr_ne i.id)]
  cases hrel : rel st.overrides (idStr i.id) with
  | none => exact ⟨[], rfl, by simp [ovs, hrel]⟩
  | some t =>
    rcases matchAction_spec (h.oinv _ _ hrel) hq.1 hc.1 with ⟨l, e, _, hp⟩ | ⟨_, h1, h2⟩
    · have hm : ∀ j ∈ l, j ∈ t.items := fun j hj => (List.mem_filter.mp (hp.mem_iff.mp hj)).1
      simp only [e, Option.map_some, readOverrides, List.map_map]
      refine ⟨_, by
        rw [readAnswer_ok]
        intro x hx
        obtain ⟨j, hj, rfl⟩ := List.mem_map.mp hx
        exact (override_shown h hrel (hm j hj)).2, ?_⟩
      have e2 : l.map (overrideEntry ∘ fun x => x.value) = l.map (fun j => (⟨j.id, j.kvs, j.value.value⟩ : Entry Key)) :=
        List.map_congr_left fun j hj => (override_shown h hrel (hm j hj)).1
      rw [e2]
      refine (hp.map _).trans (List.Perm.of_eq ?_)
      simp only [ovs, hrel, List.map_map, List.filter_map]
      rfl
    · have := hq.2; omega

/-- A match of the overrides of a rule answers with exactly the overrides of this rule covered by the request (the same exception). -/
theorem C75_match_overrides_partial {ops : List (Limiter.Op Key)} (hv : ∀ op ∈ ops, LimSpec.ValidOp op) {st : State Key} {outs}
    (hr : Limiter.run State.init ops = some (st, outs)) {id : Nat} {r : Rule} (hid : (specRun St.init ops).1.rule? id = some r)
    {mq : MatchQuery Key} (hq : GoodMatch mq) {ch : Choice Key} (hc : ValidChoice ch) :
    Answers (readMatchOverrides st ch id mq) ((r.overrides.map showOverride).filter (fun e => covered mq e.kvs)) := by
  obtain ⟨h, hs⟩ := rules_of_run (s := St.init) linv_init.toRInv hv rfl rfl hr
  obtain ⟨i, hi, _, ho⟩ := rule_item hs hid
  rw [ho]
  exact matchOverrides_inv h hi hq hc

/-- C75 is false of the code for queries that pass validation: `{"And":[]}` and queries with an empty sub-query crash the request in every
state, as does a match whose minimum exceeds its maximum. -/
theorem C75_violated_reads_crash {st : State Key} (h : LimReachable st) :
    ValidQuery (.mk none [] [] false : Query Key) ∧ queryRules st (.mk none [] [] false) = none ∧
    ValidQuery (.mk none [] [.mk none [] [] true] true : Query Key) ∧ queryRules st (.mk none [] [.mk none [] [] true] true) = none ∧
    ValidMatch ({ kvs := [(sa, ⟨ki 1, ⟨1, 1024⟩⟩)], min := some 2, max := some 1 } : MatchQuery Key) ∧
    matchRules st {} { kvs := [(sa, ⟨ki 1, ⟨1, 1024⟩⟩)], min := some 2, max := some 1 } = none := by
  have hv : ValidMatch ({ kvs := [(sa, ⟨ki 1, ⟨1, 1024⟩⟩)], min := some 2, max := some 1 } : MatchQuery Key) :=
    ⟨by simp, by simp, by simp [ValidTR, DataType.isGeneral, DataType.isAny]; decide⟩
  refine ⟨by simp [ValidQuery, everywhere, everywhereL], rfl, by simp [ValidQuery, everywhere, everywhereL], rfl, hv, ?_⟩
  rcases matchAction_spec h.inv.rinv hv (shuffle := fun l => l) (fun l => .refl l) with ⟨l, e, hn, _⟩ | ⟨e, _⟩
  · exact absurd ⟨by decide, by decide⟩ hn
  · unfold matchRules
    rw [show ({} : Choice Key).shuffle = fun l => l from rfl, e]

example : LimReachable (State.init : State Key) := ⟨[], [], by simp, rfl⟩

/-! ### Example: the history of C37 (two rules, the second with two overrides) -/

/-- a = 2 or wildcard, at most one key. -/
def readQ : Query Key := .mk (some { kvs := [(sa, ⟨ki 2, .eq, ⟨1, 1024⟩⟩)], max := some 1 }) [] [] true
/-- b = 1 or wildcard. -/
def readQ2 : Query Key := .mk (some { kvs := [(sb, ⟨ki 1, .eq, ⟨1, 1024⟩⟩)] }) [] [] true
/-- Key-values {a:2, b:5}. -/
def readM : MatchQuery Key := anyMatchQuery [(sa, ki 2), (sb, ki 5)]

theorem readQ_good : GoodQuery readQ ∧ GoodQuery readQ2 ∧ GoodMatch readM := by
  refine ⟨⟨?_, .inr (by simp [readQ, Asks])⟩, ⟨?_, .inr (by simp [readQ2, Asks])⟩, ?_, .inr (by decide +kernel)⟩
  · simp only [readQ, everywhere, everywhereL, and_true, Option.some.injEq]
    rintro s rfl
    refine ⟨⟨by decide +kernel, ?_, .inr (.inl (by simp))⟩, .inr ⟨?_, ?_⟩⟩ <;>
      simp [ValidVQ, ValidTR, DataType.isGeneral, DataType.isAny, TrOk]
    decide
  · simp only [readQ2, everywhere, everywhereL, and_true, Option.some.injEq]
    rintro s rfl
    refine ⟨⟨by decide +kernel, ?_, .inr (.inl (by simp))⟩, .inr ⟨?_, ?_⟩⟩ <;>
      simp [ValidVQ, ValidTR, DataType.isGeneral, DataType.isAny, TrOk]
    decide
  · exact validMatch_any ⟨by simp, by decide +kernel⟩

/-- Ids and limits of an answer. -/
def brief : Option (RAns Key) → Option (List (Nat × Int))
  | some (.found l) => some (l.map fun e => (e.id, e.limit))
  | _ => none

example : ∃ st outs, (∀ op ∈ limOps, LimSpec.ValidOp op) ∧ Limiter.run State.init limOps = some (st, outs) ∧
    brief (queryRules st readQ) = some [(0, 2), (1, 0)] ∧ brief (matchRules st {} readM) = some [(0, 2), (1, 0)] ∧
    ((specRun St.init limOps).1.rule? 1).isSome = true ∧ ((specRun St.init limOps).1.rule? 7).isNone = true ∧
    brief (readQueryOverrides st 1 readQ2) = some [(0, -1), (1, 3)] ∧ brief (readMatchOverrides st {} 1 readM) = some [(1, 3)] := by
  have h1 : ((Limiter.run State.init limOps).bind fun p => brief (queryRules p.1 readQ)) = some [(0, 2), (1, 0)] := by decide +kernel
  have h2 : ((Limiter.run State.init limOps).bind fun p => brief (matchRules p.1 {} readM)) = some [(0, 2), (1, 0)] := by decide +kernel
  have h3 : ((Limiter.run State.init limOps).bind fun p => brief (readQueryOverrides p.1 1 readQ2)) = some [(0, -1), (1, 3)] := by decide +kernel
  have h4 : ((Limiter.run State.init limOps).bind fun p => brief (readMatchOverrides p.1 {} 1 readM)) = some [(1, 3)] := by decide +kernel
  cases hp : Limiter.run State.init limOps with
  | none => simp [hp] at h1
  | some p =>
    simp only [hp, Option.bind_some] at h1 h2 h3 h4
    exact ⟨p.1, p.2, limOps_valid, rfl, h1, h2, by decide +kernel, by decide +kernel, h3, h4⟩

end Willow.Props
