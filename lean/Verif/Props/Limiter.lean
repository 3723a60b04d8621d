import Verif.Proofs.LimiterAny
import Verif.Props.OneToMany
/-
Properties C35-C40: the limiter (internal/limiter), one request at a time.

`Limiter.run State.init ops`: the code's state after a history of requests, with its answers.  `Limiter.abs st`: the rules with their
overrides and the counters stored in that state, as plain lists.  `LimSpec.specRun`: the specification on plain lists.
Values are any well-formed ones other than NaN (C02).
-/
namespace Willow.Props
open Assoc Spec OTM LimSpec Limiter

/-- The states a client can reach by a history of valid requests. -/
def LimReachable (st : State Key) : Prop := ∃ ops outs, (∀ op ∈ ops, LimSpec.ValidOp op) ∧ Limiter.run State.init ops = some (st, outs)

/-- The states a client can reach by a history of valid requests whose amounts sum up to less than 2^63, so that no int64 overflows. -/
def LimSmall (st : State Key) (B : Int) : Prop :=
  ∃ ops outs, (∀ op ∈ ops, LimSpec.ValidOp op) ∧ totalAmount ops = B ∧ B < 2 ^ 63 ∧ Limiter.run State.init ops = some (st, outs)

theorem LimReachable.inv {st : State Key} (h : LimReachable st) : RInv st := by
  obtain ⟨ops, outs, hv, hr⟩ := h
  obtain ⟨st', outs', e, hI⟩ := any_run linv_init.toRInv hv
  rw [e] at hr; cases hr; exact hI

theorem LimSmall.inv {st : State Key} {B : Int} (h : LimSmall st B) : LInv st B ∧ B < 2 ^ 63 := by
  obtain ⟨ops, outs, hv, rfl, hB, hr⟩ := h
  obtain ⟨st', outs', e, hI, _⟩ := sim_run linv_init hv (by omega)
  rw [e] at hr; cases hr
  exact ⟨by simpa using hI, hB⟩

theorem LimSmall.reachable {st : State Key} {B : Int} (h : LimSmall st B) : LimReachable st := by
  obtain ⟨ops, outs, hv, _, _, hr⟩ := h
  exact ⟨ops, outs, hv, hr⟩

/-- C35-C40.  Every history of valid requests whose amounts do not overflow runs without a crash; what the limiter stores, and every
answer, are those of the plain specification, whatever orders Go's maps are visited in. -/
theorem C37_refines (ops : List (Limiter.Op Key)) (hv : ∀ op ∈ ops, LimSpec.ValidOp op) (hB : totalAmount ops < 2 ^ 63) :
    ∃ st outs, Limiter.run State.init ops = some (st, outs) ∧ abs st = (specRun St.init ops).1 ∧ List.Forall₂ LimSpec.Same outs (specRun St.init ops).2 := by
  obtain ⟨st', outs', e, _, h1, h2⟩ := sim_run linv_init hv (by omega)
  exact ⟨st', outs', e, h1, h2⟩

/-- No history of valid requests crashes the limiter, overflows or not. -/
theorem C37_no_crash (ops : List (Limiter.Op Key)) (hv : ∀ op ∈ ops, LimSpec.ValidOp op) : Limiter.run State.init ops ≠ none := by
  obtain ⟨st', outs', e, _⟩ := any_run linv_init.toRInv hv
  rw [e]; simp

/-- The history of the examples: two rules (limit 2 for each value of a; limit 0 for a = 2 with overrides -1 and 3), counters. -/
def limOps : List (Limiter.Op Key) :=
  [.createRule [(sa, kany)] 2, .createRule [(sa, ki 2)] 0, .createOverride 1 [(sa, ki 2), (sb, ki 1)] (-1), .createOverride 1 [(sa, ki 2), (sb, kany)] 3,
   .upsert {} [(sa, ki 1)] 1, .upsert {} [(sa, ki 1), (sb, ki 5)] 1, .upsert {} [(sa, ki 1), (sb, ki 7)] 1,
   .upsert {} [(sa, ki 2)] 1, .upsert {} [(sa, ki 2), (sb, ki 1)] 1, .upsert {} [(sb, ki 1)] 40, .upsert {} [(sa, ki 1)] (-1), .getRule 1]

theorem noChoice_valid : ValidChoice {} := ⟨fun _ => .refl _, fun _ => .refl _, fun _ => .refl _, fun _ => .refl _, fun _ => .refl _⟩

theorem limOps_valid : ∀ op ∈ limOps, LimSpec.ValidOp op := by
  intro op h
  simp only [limOps, List.mem_cons, List.not_mem_nil, or_false] at h
  rcases h with rfl | rfl | rfl | rfl | rfl | rfl | rfl | rfl | rfl | rfl | rfl | rfl <;> simp only [LimSpec.ValidOp, ValidLimit, LimSpec.Int64, Typed, noChoice_valid] <;>
    first | decide +kernel | trivial

/-- The answers as short codes. -/
def outCode : Out Key → Nat
  | .ok => 200 | .created _ => 201 | .badRequest => 400 | .notFound => 404 | .conflict => 409 | .internal => 500 | .one _ _ => 202 | .counters _ => 203

/-- The state of the examples. -/
def limState : State Key := match Limiter.run State.init limOps with | some r => r.1 | none => State.init

/-- Non-vacuity: the history of the examples runs; two of the increments are refused. -/
example : totalAmount limOps = 45 ∧
    ((Limiter.run State.init limOps).map (fun r => r.2.map outCode)) = some [201, 201, 201, 201, 200, 200, 409, 409, 200, 200, 200, 202] := by
  decide +kernel

theorem limState_small : LimSmall limState 45 := by
  obtain ⟨st, outs, e, _⟩ := C37_refines limOps limOps_valid (by decide +kernel)
  refine ⟨limOps, outs, limOps_valid, by decide +kernel, by decide, ?_⟩
  unfold limState; rw [e]

/-! ### C37, C38 -/

/-- A limit on the group of counters with the same values for some keys is in force and reached. -/
def Blocks (st : State Key) (kvs : KVs Key) (pat : KVs Key) (limit : Int) : Prop :=
  limit ≠ -1 ∧ limit ≤ groupTotal (abs st).counters (pat.map (·.1)) kvs

/-- C38.  An increment is refused (409, nothing stored changes) exactly if some rule applies to the counter and either one of its
overrides applies and blocks, or none of its overrides applies and the rule's own limit blocks; otherwise it is accepted and exactly the
amount is added.  The orders in which maps are visited do not matter. -/
theorem C38_increment_decision {st : State Key} {B : Int} (h : LimSmall st B) {ch : Choice Key} {kvs : KVs Key} {c : Int}
    (hv : LimSpec.ValidOp (.upsert ch kvs c)) (hc : 0 < c) (hB : B + c < 2 ^ 63) :
    let refused := ∃ r ∈ (abs st).rules, applies r.kvs kvs = true ∧
      ((∃ o ∈ r.overrides, applies o.kvs kvs = true ∧ Blocks st kvs o.kvs o.limit) ∨
       ((∀ o ∈ r.overrides, applies o.kvs kvs = false) ∧ Blocks st kvs r.kvs r.limit))
    (refused → Limiter.step st (.upsert ch kvs c) = some (st, .conflict)) ∧
    (¬ refused → ∃ st', Limiter.step st (.upsert ch kvs c) = some (st', .ok) ∧ (abs st').rules = (abs st).rules ∧
      (abs st').counters = putCounter (abs st).counters kvs c (· + c)) := by
  intro refused
  obtain ⟨hI, _⟩ := h.inv
  obtain ⟨hk, ht, _, hch⟩ := hv
  have hiff : refused ↔ allowed (abs st) kvs = false := by
    rw [allowed, List.all_eq_false]
    constructor
    · rintro ⟨r, hr, ha, ⟨o, ho, hoa, h1, h2⟩ | ⟨hno, h1, h2⟩⟩
      · refine ⟨(o.kvs.map (·.1), o.limit), ?_, ?_⟩
        · refine List.mem_flatMap.2 ⟨r, hr, ?_⟩
          have hm : o ∈ r.overrides.filter (fun o => applies o.kvs kvs) := List.mem_filter.2 ⟨ho, hoa⟩
          simp only [ruleLimits, ha, if_true]
          split
          · rename_i e; rw [e] at hm; cases hm
          · exact List.mem_map.2 ⟨o, hm, rfl⟩
        · simp [h1]; omega
      · refine ⟨(r.kvs.map (·.1), r.limit), ?_, ?_⟩
        · refine List.mem_flatMap.2 ⟨r, hr, ?_⟩
          have : r.overrides.filter (fun o => applies o.kvs kvs) = [] := by
            rw [List.filter_eq_nil_iff]; intro o ho; simp [hno o ho]
          simp [ruleLimits, ha, this]
        · simp [h1]; omega
    · rintro ⟨x, hx, hf⟩
      obtain ⟨r, hr, hx⟩ := List.mem_flatMap.1 hx
      simp only [Bool.or_eq_true, beq_iff_eq, decide_eq_true_eq, not_or] at hf
      unfold ruleLimits at hx
      split at hx
      rotate_left
      · cases hx
      rename_i ha
      refine ⟨r, hr, ha, ?_⟩
      split at hx
      · rename_i hnil
        simp only [List.mem_singleton] at hx; subst hx
        right
        refine ⟨?_, hf.1, by simp only at hf; omega⟩
        intro o ho
        have := List.filter_eq_nil_iff.1 hnil o ho
        simpa using this
      · obtain ⟨o, ho, rfl⟩ := List.mem_map.1 hx
        left
        obtain ⟨ho1, ho2⟩ := List.mem_filter.1 ho
        exact ⟨o, ho1, ho2, hf.1, by simp only at hf; omega⟩
  constructor
  · intro hr
    simp only [Limiter.step, upsert, if_pos hc]
    rw [increment_eq hI (by omega) hch hk ht, hiff.1 hr]; rfl
  · intro hr
    have ha : allowed (abs st) kvs = true := by
      cases e : allowed (abs st) kvs with
      | true => rfl
      | false => exact absurd (hiff.2 e) hr
    obtain ⟨st', out, e, _, hab, hs⟩ := sim_increment hI hch hk ht hc hB
    simp only [specStep, if_pos hc, ha, if_true] at hab hs
    cases out <;> simp [LimSpec.Same] at hs
    exact ⟨st', e, by rw [hab], by rw [hab]⟩

/-- Non-vacuity of C38: in the state of the examples rule 1 is replaced by its overrides for {a:2, b:1} and refuses {a:2}. -/
example : ((Limiter.step limState (.upsert {} [(sa, ki 2), (sb, ki 1)] 1)).map (fun r => outCode r.2)) = some 200 ∧
    ((Limiter.step limState (.upsert {} [(sa, ki 2)] 1)).map (fun r => outCode r.2)) = some 409 ∧
    ((Limiter.step limState (.upsert {} [(sa, ki 1)] 1)).map (fun r => outCode r.2)) = some 200 ∧
    ((abs limState).rules.map (fun r => (r.id, r.limit, r.overrides.map (fun o => (o.id, o.limit))))) = [(0, 2, []), (1, 0, [(0, -1), (1, 3)])] := by
  decide +kernel

/-- C38.  A rule whose own limit is changed decides exactly as before about counters one of its overrides applies to. -/
theorem C38_own_limit_irrelevant (rs : List Rule) (kvs : KVs Key) (id : Nat) (l : Int)
    (h : ∀ r ∈ rs, r.id = id → applies r.kvs kvs = true → ∃ o ∈ r.overrides, applies o.kvs kvs = true) :
    effective (rs.map (fun r => if r.id == id then { r with limit := l } else r)) kvs = effective rs kvs := by
  unfold effective
  induction rs with
  | nil => rfl
  | cons r rs ih =>
    rw [List.map_cons, List.flatMap_cons, List.flatMap_cons, ih (fun r hr => h r (by simp [hr]))]
    congr 1
    split
    · rename_i e
      rw [beq_iff_eq] at e
      unfold ruleLimits
      simp only
      split
      · rename_i ha
        obtain ⟨o, ho, hoa⟩ := h r (by simp) e ha
        have hm : o ∈ r.overrides.filter (fun o => applies o.kvs kvs) := List.mem_filter.2 ⟨ho, hoa⟩
        split
        · rename_i hn; rw [hn] at hm; cases hm
        · rfl
      · rfl
    · rfl

/-- The limits in force for a counter: the limits of the applying overrides of a rule that applies, or its own if there are none. -/
def InForce (st : State Key) (kvs : KVs Key) (limit : Int) : Prop :=
  ∃ r ∈ (abs st).rules, applies r.kvs kvs = true ∧
    ((∃ o ∈ r.overrides, applies o.kvs kvs = true ∧ o.limit = limit) ∨ ((∀ o ∈ r.overrides, applies o.kvs kvs = false) ∧ r.limit = limit))

theorem inForce_effective {st : State Key} {kvs : KVs Key} {x : List GoString × Int} (h : x ∈ effective (abs st).rules kvs) : InForce st kvs x.2 := by
  obtain ⟨r, hr, hx⟩ := List.mem_flatMap.1 h
  unfold ruleLimits at hx
  split at hx
  rotate_left
  · cases hx
  rename_i ha
  refine ⟨r, hr, ha, ?_⟩
  split at hx
  · rename_i hn
    simp only [List.mem_singleton] at hx; subst hx
    right
    refine ⟨fun o ho => ?_, rfl⟩
    have := List.filter_eq_nil_iff.1 hn o ho
    simpa using this
  · obtain ⟨o, ho, rfl⟩ := List.mem_map.1 hx
    left
    exact ⟨o, (List.mem_filter.1 ho).1, (List.mem_filter.1 ho).2, rfl⟩

/-- C38.  After any history (overflows included), in whatever order maps are visited, the limits an increment consults are limits in force -
those of the applying overrides of an applying rule, or its own if no override of it applies - each with the keys of that override or rule; and
all of them are consulted unless one of 0 was met. -/
theorem C38_limits_consulted {st : State Key} (h : LimReachable st) {ch : Choice Key} (hch : ValidChoice ch) {kvs : KVs Key} (hk : ValidKVs kvs) (ht : Typed kvs) :
    ∃ rs, findLimits st ch kvs = some (some rs) ∧
      (∀ x ∈ rs.flatMap Found.limits, x ∈ effective (abs st).rules kvs ∧ InForce st kvs x.2) ∧
      ((∃ x ∈ rs.flatMap Found.limits, x.2 = 0) ∨ ∀ x ∈ effective (abs st).rules kvs, x ∈ rs.flatMap Found.limits) := by
  obtain ⟨rs, e, h1, h2⟩ := findLimits_spec h.inv hch hk ht
  exact ⟨rs, e, fun x hx => ⟨h1 x hx, inForce_effective (h1 x hx)⟩, h2⟩

/-- Non-vacuity of C38_limits_consulted: what is consulted for {a:2, b:1} in the state of the examples. -/
example : ((findLimits limState {} [(sa, ki 2), (sb, ki 1)]).map (fun r => r.map (fun rs => rs.flatMap Found.limits))) =
    some (some [([sa], 2), ([sa, sb], -1), ([sa, sb], 3)]) := by decide +kernel

/-- C37.  After any history (overflows included): if every limit in force is -1 - in particular if no rule applies - an increment is
accepted, whatever the totals are. -/
theorem C37_unlimited_accepts {st : State Key} (h : LimReachable st) {ch : Choice Key} {kvs : KVs Key} {c : Int}
    (hv : LimSpec.ValidOp (.upsert ch kvs c)) (hc : 0 < c) (hun : ∀ l, InForce st kvs l → l = -1) :
    ∃ st', Limiter.step st (.upsert ch kvs c) = some (st', .ok) := by
  have hI := h.inv
  obtain ⟨hk, ht, _, hch⟩ := hv
  obtain ⟨st', e2, _⟩ := add_any hI hk ht c
  rcases increment_any hI hch hk ht c with e | ⟨_, x, hx, hne⟩
  · exact ⟨st', by simp only [Limiter.step, upsert, if_pos hc]; rw [e, e2]⟩
  · exact absurd (hun _ (inForce_effective hx)) hne

/-- C37.  After any history: with no rule that applies an increment is accepted. -/
theorem C37_no_rule_accepts {st : State Key} (h : LimReachable st) {ch : Choice Key} {kvs : KVs Key} {c : Int}
    (hv : LimSpec.ValidOp (.upsert ch kvs c)) (hc : 0 < c) (hno : ∀ r ∈ (abs st).rules, applies r.kvs kvs = false) :
    ∃ st', Limiter.step st (.upsert ch kvs c) = some (st', .ok) := by
  refine C37_unlimited_accepts h hv hc ?_
  rintro l ⟨r, hr, ha, _⟩
  rw [hno r hr] at ha; cases ha

/-- C37.  If a limit in force is 0 an increment is always refused (without overflows; see `C37_violated_zero_after_overflow`). -/
theorem C37_zero_rejects_partial {st : State Key} {B : Int} (h : LimSmall st B) {ch : Choice Key} {kvs : KVs Key} {c : Int}
    (hv : LimSpec.ValidOp (.upsert ch kvs c)) (hc : 0 < c) (hB : B + c < 2 ^ 63) (hz : InForce st kvs 0) :
    Limiter.step st (.upsert ch kvs c) = some (st, .conflict) := by
  refine (C38_increment_decision h hv hc hB).1 ?_
  obtain ⟨r, hr, ha, ⟨o, ho, hoa, hl⟩ | ⟨hno, hl⟩⟩ := hz
  · exact ⟨r, hr, ha, .inl ⟨o, ho, hoa, by omega, by rw [hl]; exact groupTotal_nonneg h.inv.1 _ _⟩⟩
  · exact ⟨r, hr, ha, .inr ⟨hno, by omega, by rw [hl]; exact groupTotal_nonneg h.inv.1 _ _⟩⟩

/-- Non-vacuity of C37. -/
example : InForce limState [(sa, ki 2)] 0 ∧ (∀ r ∈ (abs limState).rules, applies r.kvs [(sb, ki 1)] = false) ∧
    ∀ l, InForce limState [(sb, ki 1)] l → l = -1 := by
  refine ⟨⟨(abs limState).rules[1]'(by decide +kernel), ?_, by decide +kernel, .inr ⟨?_, by decide +kernel⟩⟩, by decide +kernel, ?_⟩
  · exact List.getElem_mem _
  · decide +kernel
  · rintro l ⟨r, hr, ha, _⟩
    have : ∀ r ∈ (abs limState).rules, applies r.kvs [(sb, ki 1)] = false := by decide +kernel
    rw [this r hr] at ha; cases ha

/-- The history of the next two theorems: a rule with an override of 0, another rule, a counter that overflows. -/
def overflowOps : List (Limiter.Op Key) :=
  [.setCounter [(sa, ki 1)] (2 ^ 63 - 1), .upsert {} [(sa, ki 1)] 1,
   .createRule [(sa, kany)] 5, .createOverride 0 [(sa, ki 1)] 0, .createRule [(sa, ki 1)] 7]

theorem overflowOps_valid : ∀ op ∈ overflowOps, LimSpec.ValidOp op := by
  intro op h
  simp only [overflowOps, List.mem_cons, List.not_mem_nil, or_false] at h
  rcases h with rfl | rfl | rfl | rfl | rfl <;> simp only [LimSpec.ValidOp, ValidLimit, LimSpec.Int64, Typed, noChoice_valid] <;> decide +kernel

/-- C37, violated.  After a counter overflowed to a negative value an increment is accepted although an override of 0 is in force. -/
theorem C37_violated_zero_after_overflow : ∃ st, LimReachable st ∧ InForce st [(sa, ki 1)] 0 ∧
    ∃ st', Limiter.step st (.upsert {} [(sa, ki 1)] 1) = some (st', .ok) := by
  obtain ⟨st, outs, e, _⟩ := any_run linv_init.toRInv overflowOps_valid
  have hst : st = (match Limiter.run State.init overflowOps with | some r => r.1 | none => State.init) := by rw [e]
  refine ⟨st, ⟨overflowOps, outs, overflowOps_valid, e⟩, ?_, ?_⟩
  · subst hst
    refine ⟨(abs (match Limiter.run State.init overflowOps with | some r => r.1 | none => State.init)).rules[0]'(by decide +kernel), List.getElem_mem _,
      by decide +kernel, .inl ⟨⟨0, [(sa, ki 1)], 0⟩, ?_, by decide +kernel, rfl⟩⟩
    have : (abs (match Limiter.run State.init overflowOps with | some r => r.1 | none => State.init)).rules[0]'(by decide +kernel) =
      ⟨0, [(sa, kany)], 5, [⟨0, [(sa, ki 1)], 0⟩], 1⟩ := by rfl
    rw [this]; simp
  · have h1 : ((Limiter.step st (.upsert {} [(sa, ki 1)] 1)).map (fun r => outCode r.2)) = some 200 := by subst hst; decide +kernel
    cases hs : Limiter.step st (.upsert {} [(sa, ki 1)] 1) with
    | none => rw [hs] at h1; cases h1
    | some r =>
      obtain ⟨st', out⟩ := r
      rw [hs] at h1
      cases out <;> simp [outCode] at h1
      exact ⟨st', rfl⟩

/-! ### C35, C36 -/

/-- C35, C36 in general.  From any state in which the rule is stored without overrides, after any history of valid requests that does not
update or delete the rule, create overrides for it, or set counters to positive values, and whose increments are at most `m`: the total of
every group of counters the rule applies to is at most limit - 1 + m (or what it was before). -/
theorem C36_total_bounded_partial {st : State Key} {B : Int} (h : LimSmall st B) {id : Nat} {rk : KVs Key} {L m : Int} (hr : HasRule id rk L (abs st)) (hL : L ≠ -1)
    {ops : List (Limiter.Op Key)} (hv : ∀ op ∈ ops, LimSpec.ValidOp op) (hB : B + totalAmount ops < 2 ^ 63)
    (hops : ∀ op ∈ ops, KeepsRule id op ∧ (∀ k c, op = .setCounter k c → c ≤ 0) ∧ ∀ ch k c, op = .upsert ch k c → c ≤ m) :
    ∃ st' outs, Limiter.run st ops = some (st', outs) ∧ HasRule id rk L (abs st') ∧ ∀ kvs, applies rk kvs = true →
      groupTotal (abs st').counters (rk.map (·.1)) kvs ≤ max (L - 1 + m) (groupTotal (abs st).counters (rk.map (·.1)) kvs) := by
  obtain ⟨hI, _⟩ := h.inv
  obtain ⟨st', outs, e, _⟩ := sim_run hI hv hB
  have key : ∀ kvs, applies rk kvs = true → HasRule id rk L (abs st') ∧
      groupTotal (abs st').counters (rk.map (·.1)) kvs ≤ max (L - 1 + m) (groupTotal (abs st).counters (rk.map (·.1)) kvs) := by
    intro kvs ha
    obtain ⟨st2, outs2, e2, _, hp, hle⟩ := total_bound (P := HasRule id rk L) (keys := rk.map (·.1)) (kvs := kvs) (m := m) hL
      (fun st hP k hk => effective_rule hP ha hk) hI hr hv hB
      (fun op ho => ⟨(hops op ho).2.1, (hops op ho).2.2, fun st _ hP => keeps_rule (hops op ho).1 hP⟩)
    rw [e] at e2; cases e2
    exact ⟨hp, hle⟩
  refine ⟨st', outs, e, ?_, fun kvs ha => (key kvs ha).2⟩
  have : applies rk rk = true := by
    obtain ⟨r, hrm, _, rfl, _⟩ := hr
    have hval := hI.sinv.rval r hrm
    unfold applies
    rw [List.all_eq_true]
    intro p hp
    rw [valueOf_of_mem hval.2 (show (p.1, p.2) ∈ r.kvs from hp)]
    have : same p.2 p.2 = true := BTree.keq_refl _
    simp [this]
  exact (key rk this).1

/-- C35.  From any state in which the rule is stored without overrides and no group is above the limit (in particular with no counters yet),
after any history of increments by one, decrements, removals of counters and requests on other rules, no group of counters the rule applies to
has a total above the limit. -/
theorem C35_limit_never_exceeded {st : State Key} {B : Int} (h : LimSmall st B) {id : Nat} {rk : KVs Key} {L : Int} (hr : HasRule id rk L (abs st)) (hL : L ≠ -1)
    (h0 : ∀ kvs, applies rk kvs = true → groupTotal (abs st).counters (rk.map (·.1)) kvs ≤ L)
    {ops : List (Limiter.Op Key)} (hv : ∀ op ∈ ops, LimSpec.ValidOp op) (hB : B + totalAmount ops < 2 ^ 63)
    (hops : ∀ op ∈ ops, KeepsRule id op ∧ (∀ k c, op = .setCounter k c → c ≤ 0) ∧ ∀ ch k c, op = .upsert ch k c → c ≤ 1) :
    ∃ st' outs, Limiter.run st ops = some (st', outs) ∧ ∀ kvs, applies rk kvs = true → groupTotal (abs st').counters (rk.map (·.1)) kvs ≤ L := by
  obtain ⟨st', outs, e, _, hle⟩ := C36_total_bounded_partial h hr hL hv hB hops
  refine ⟨st', outs, e, fun kvs ha => ?_⟩
  have := hle kvs ha
  have := h0 kvs ha
  omega

/-- C35 for overrides.  The same for the limit of an override and the groups it and its rule apply to, as long as the override is not updated or
deleted and the rule is not deleted. -/
theorem C35_override_limit_never_exceeded {st : State Key} {B : Int} (h : LimSmall st B) {id oid : Nat} {rk ok : KVs Key} {L : Int}
    (hr : HasOverride id rk oid ok L (abs st)) (hL : L ≠ -1)
    (h0 : ∀ kvs, applies rk kvs = true → applies ok kvs = true → groupTotal (abs st).counters (ok.map (·.1)) kvs ≤ L)
    {ops : List (Limiter.Op Key)} (hv : ∀ op ∈ ops, LimSpec.ValidOp op) (hB : B + totalAmount ops < 2 ^ 63)
    (hops : ∀ op ∈ ops, KeepsOverride id oid op ∧ (∀ k c, op = .setCounter k c → c ≤ 0) ∧ ∀ ch k c, op = .upsert ch k c → c ≤ 1) :
    ∃ st' outs, Limiter.run st ops = some (st', outs) ∧
      ∀ kvs, applies rk kvs = true → applies ok kvs = true → groupTotal (abs st').counters (ok.map (·.1)) kvs ≤ L := by
  obtain ⟨hI, _⟩ := h.inv
  obtain ⟨st', outs, e, _⟩ := sim_run hI hv hB
  refine ⟨st', outs, e, fun kvs ha hao => ?_⟩
  have hsub : ∀ x ∈ rk.map (·.1), x ∈ ok.map (·.1) := by
    obtain ⟨r, hrm, _, rfl, o, hom, _, rfl, _⟩ := hr
    exact hI.sinv.okeys r hrm o hom
  obtain ⟨st2, outs2, e2, _, _, hle⟩ := total_bound (P := HasOverride id rk oid ok L) (keys := ok.map (·.1)) (kvs := kvs) (m := 1) hL
    (fun st hP k hk => effective_override hP hsub ha hao hk) hI hr hv hB
    (fun op ho => ⟨(hops op ho).2.1, (hops op ho).2.2, fun st _ hP => keeps_override (hops op ho).1 hP⟩)
  rw [e] at e2; cases e2
  have := h0 kvs ha hao
  omega

/-- Non-vacuity of C35: the first rule of the examples with limit 2; the second override with limit 3. -/
example : (∃ rk, HasRule 0 rk 2 (abs limState)) ∧ (∃ rk ok, HasOverride 1 rk 1 ok 3 (abs limState)) ∧
    groupTotal (abs limState).counters [sa] [(sa, ki 1)] = 1 ∧ (∀ op ∈ limOps.drop 4, KeepsRule 0 op ∧ KeepsOverride 1 1 op) := by
  refine ⟨⟨_, (abs limState).rules[0]'(by decide +kernel), List.getElem_mem _, by decide +kernel, rfl, by decide +kernel, List.isEmpty_iff.1 (by decide +kernel)⟩,
    ⟨_, _, (abs limState).rules[1]'(by decide +kernel), List.getElem_mem _, by decide +kernel, rfl,
      ((abs limState).rules[1]'(by decide +kernel)).overrides[1]'(by decide +kernel), List.getElem_mem _, by decide +kernel, rfl, by decide +kernel⟩, by decide +kernel, ?_⟩
  intro op h
  simp only [limOps, List.drop_succ_cons, List.drop_zero, List.mem_cons, List.not_mem_nil, or_false] at h
  rcases h with rfl | rfl | rfl | rfl | rfl | rfl | rfl | rfl <;> exact ⟨trivial, trivial⟩

/-- The history of the next theorem. -/
def tenOps : List (Limiter.Op Key) := [.createRule [(sa, ki 1)] 5, .upsert {} [(sa, ki 1)] 10]

/-- C36, violated.  A rule with limit 5, no counters; one increment by 10 is accepted and the total is 10. -/
theorem C36_violated_increment_past_limit : (∀ op ∈ tenOps, LimSpec.ValidOp op) ∧ ∃ st outs, Limiter.run State.init tenOps = some (st, outs) ∧
    outs = [.created 0, .ok] ∧ HasRule 0 [(sa, ki 1)] 5 (abs st) ∧ groupTotal (abs st).counters [sa] [(sa, ki 1)] = 10 := by
  have hv : ∀ op ∈ tenOps, LimSpec.ValidOp op := by
    intro op h
    simp only [tenOps, List.mem_cons, List.not_mem_nil, or_false] at h
    rcases h with rfl | rfl <;> simp only [LimSpec.ValidOp, ValidLimit, LimSpec.Int64, Typed, noChoice_valid] <;> decide +kernel
  refine ⟨hv, ?_⟩
  obtain ⟨st, outs, e, _⟩ := C37_refines tenOps hv (by decide +kernel)
  have hst : st = (match Limiter.run State.init tenOps with | some r => r.1 | none => State.init) := by rw [e]
  have hout : outs = (match Limiter.run State.init tenOps with | some r => r.2 | none => []) := by rw [e]
  refine ⟨st, outs, e, ?_, ?_, ?_⟩
  · rw [hout]; rfl
  · refine ⟨⟨0, [(sa, ki 1)], 5, [], 0⟩, ?_, rfl, rfl, rfl, rfl⟩
    have : (abs st).rules = [⟨0, [(sa, ki 1)], 5, [], 0⟩] := by rw [hst]; rfl
    rw [this]; simp
  · rw [hst]; decide +kernel

/-! ### C39 -/

/-- The value of a counter, 0 if it is not stored. -/
def counterValue (st : State Key) (kvs : KVs Key) : Int := valueAt (abs st).counters kvs

/-- C39.  Without overflows: stored counters are positive, and there is at most one for the same key-values. -/
theorem C39_counters_positive_partial {st : State Key} {B : Int} (h : LimSmall st B) :
    (∀ c ∈ (abs st).counters, 0 < c.value) ∧ (abs st).counters.Pairwise (fun a b => sameKVs a.kvs b.kvs = false) ∧
    ∀ kvs, (∃ c ∈ (abs st).counters, sameKVs kvs c.kvs = true) ↔ counterValue st kvs ≠ 0 := by
  have hs := h.inv.1.sinv
  refine ⟨hs.cpos, hs.cuniq, fun kvs => ?_⟩
  rw [← List.any_eq_true (p := fun c : Counter => sameKVs kvs c.kvs)]
  have := present_value hs.cpos kvs
  unfold counterValue
  constructor
  · intro hx; have := this.1 hx; omega
  · intro hx
    cases hp : present (abs st).counters kvs with
    | true => exact hp
    | false => exact absurd (valueAt_nil_of hp) hx

/-- The answer 200. -/
def isOk : Out Key → Bool
  | .ok => true
  | _ => false

/-- C39.  Without overflows: an accepted increment adds exactly its amount to the one counter, a decrement takes exactly its amount from the one
counter but not below 0 (0 = not stored), a set stores exactly the value, or removes the counter if it is not positive; every other counter keeps its
value, and so do all counters on any other request and on a refused increment. -/
theorem C39_counter_updates_partial {st : State Key} {B : Int} (h : LimSmall st B) {op : Limiter.Op Key} (hv : LimSpec.ValidOp op) (hB : B + amount op < 2 ^ 63) :
    ∃ st' out, Limiter.step st op = some (st', out) ∧ ∀ x, ValidKVs x → counterValue st' x =
      match op with
      | .upsert _ kvs c => if sameKVs kvs x && isOk out then max 0 (counterValue st x + c) else counterValue st x
      | .setCounter kvs c => if sameKVs kvs x = true then max 0 c else counterValue st x
      | _ => counterValue st x := by
  obtain ⟨hI, _⟩ := h.inv
  have hs := hI.sinv
  obtain ⟨st', out, e, _, hab, hsm⟩ := sim_step hI hv hB
  refine ⟨st', out, e, fun x hx => ?_⟩
  unfold counterValue
  rw [hab]
  have hnn : 0 ≤ valueAt (abs st).counters x := by
    cases hp : present (abs st).counters x with
    | true => have := (present_value hs.cpos x).1 hp; omega
    | false => rw [valueAt_nil_of hp]; omega
  have hcongr : ∀ {k}, ValidKVs k → sameKVs k x = true → valueAt (abs st).counters k = valueAt (abs st).counters x := by
    intro k hk hsame
    unfold valueAt
    have : (fun c : Counter => sameKVs k c.kvs) = (fun c => sameKVs x c.kvs) := by funext c; exact sameKVs_congr hk hx hsame
    rw [this]
  cases op with
  | upsert ch k c =>
    have hk := hv.1
    simp only [specStep] at hsm ⊢
    split at hsm
    · rename_i hc
      rw [if_pos hc]
      split at hsm
      · rename_i ha
        rw [if_pos ha]
        have : out = .ok := by cases out <;> simp [LimSpec.Same] at hsm <;> rfl
        subst this
        simp only [isOk, Bool.and_true]
        rw [valueAt_put hs.cval hs.cpos hk hx]
        split
        · rename_i hsame
          rw [hcongr hk hsame]
          split <;> omega
        · rfl
      · rename_i ha
        rw [if_neg ha]
        have : out = .conflict := by cases out <;> simp [LimSpec.Same] at hsm <;> rfl
        subst this
        simp [isOk]
    · rename_i hc
      rw [if_neg hc]
      split at hsm
      · rename_i hz
        rw [if_pos hz]
        have : out = .ok := by cases out <;> simp [LimSpec.Same] at hsm <;> rfl
        subst this
        simp only [isOk, Bool.and_true]
        rw [valueAt_remove hs.cval hk hx]
        split
        · rename_i hsame
          rw [hcongr hk hsame] at hz; omega
        · rfl
      · rename_i hz
        rw [if_neg hz]
        have : out = .ok := by cases out <;> simp [LimSpec.Same] at hsm <;> rfl
        subst this
        simp only [isOk, Bool.and_true]
        rw [valueAt_change hs.cval hk hx]
        split
        · rename_i hsame
          rw [hcongr hk hsame] at hz
          have hp : present (abs st).counters k = true := by
            rw [present_value hs.cpos, hcongr hk hsame]; omega
          rw [if_pos hp]; omega
        · rfl
  | setCounter k c =>
    have hk := hv.1
    simp only [specStep]
    split
    · rw [valueAt_remove hs.cval hk hx]
      split <;> omega
    · rw [valueAt_put hs.cval hs.cpos hk hx]
      split
      · split <;> omega
      · rfl
  | createRule _ _ => simp only [specStep]; split <;> rfl
  | getRule _ => simp only [specStep]; split <;> rfl
  | updateRule _ _ => simp only [specStep]; split <;> rfl
  | deleteRule _ _ => simp only [specStep]; split <;> rfl
  | createOverride _ _ _ => simp only [specStep]; repeat' split
                            all_goals rfl
  | getOverride _ _ => simp only [specStep]; repeat' split
                       all_goals rfl
  | updateOverride _ _ _ => simp only [specStep]; repeat' split
                            all_goals rfl
  | deleteOverride _ _ => simp only [specStep]; split <;> rfl
  | queryCounters _ => rfl

/-- Non-vacuity of C39: the counters of the examples after one more decrement and a set. -/
example : [[(sa, ki 1)], [(sa, ki 1), (sb, ki 5)], [(sb, ki 5), (sa, ki 1)], [(sb, ki 1)], [(sb, ki 2)]].map (counterValue limState) = [0, 1, 1, 40, 0] ∧
    ((Limiter.step limState (.upsert {} [(sb, ki 1)] (-3))).map (fun r => counterValue r.1 [(sb, ki 1)])) = some 37 ∧
    ((Limiter.step limState (.upsert {} [(sb, ki 1)] (-41))).map (fun r => (r.1.counters.items.length, counterValue r.1 [(sb, ki 1)]))) = some (2, 0) ∧
    limState.counters.items.length = 3 := by decide +kernel

/-- C39, violated.  A counter set to the largest int64 and increased by one is stored as a negative number. -/
theorem C39_violated_overflow : ∃ st, LimReachable st ∧ counterValue st [(sa, ki 1)] = - 2 ^ 63 := by
  obtain ⟨st, outs, e, _⟩ := any_run (ops := overflowOps.take 2) linv_init.toRInv (fun op h => overflowOps_valid op (List.mem_of_mem_take h))
  refine ⟨st, ⟨_, outs, fun op h => overflowOps_valid op (List.mem_of_mem_take h), e⟩, ?_⟩
  have hst : st = (match Limiter.run State.init (overflowOps.take 2) with | some r => r.1 | none => State.init) := by rw [e]
  rw [hst]; decide +kernel

/-! ### C40 -/

/-- C40.  After any history (overflows included): no two rules have the same key-values or id; no two overrides of a rule have the same key-values or
id; every override has all keys of its rule and does not use the reserved key; limits are valid. -/
theorem C40_unique {st : State Key} (h : LimReachable st) :
    (abs st).rules.Pairwise (fun a b => sameKVs a.kvs b.kvs = false ∧ a.id ≠ b.id) ∧
    ∀ r ∈ (abs st).rules, ValidLimit r.limit ∧ r.overrides.Pairwise (fun a b => sameKVs a.kvs b.kvs = false ∧ a.id ≠ b.id) ∧
      ∀ o ∈ r.overrides, ValidLimit o.limit ∧ (∀ k ∈ r.kvs.map (·.1), k ∈ o.kvs.map (·.1)) ∧ reservedID ∉ o.kvs.map (·.1) := by
  have hs := h.inv.rinv'
  exact ⟨hs.runiq, fun r hr => ⟨hs.rlim r hr, hs.ouniq r hr, fun o ho => ⟨hs.olim r hr o ho, hs.okeys r hr o ho, hs.ores r hr o ho⟩⟩⟩

/-- C40.  After any history every stored set of overrides belongs to a stored rule. -/
theorem C40_no_override_without_rule {st : State Key} (h : LimReachable st) {b : GoString} {t : ATree Key (OItem Key Int)} (hr : rel st.overrides b = some t) :
    ∃ i ∈ st.rules.items, b = idStr i.id := h.inv.own b t hr

/-- C40.  After any history, requests on rules and overrides do exactly what the specification says, with the answer of the specification. -/
theorem C40_rule_requests {st : State Key} (h : LimReachable st) {op : Limiter.Op Key} (hv : LimSpec.ValidOp op) (hr : OnRules op) :
    ∃ st' out, Limiter.step st op = some (st', out) ∧ abs st' = (specStep (abs st) op).1 ∧ LimSpec.Same out (specStep (abs st) op).2 := by
  obtain ⟨st', out, e, _, h1, h2⟩ := any_ruleStep h.inv hv hr
  exact ⟨st', out, e, h1, h2⟩

/-- C40.  A second rule, or a second override of a rule, with the same key-values is refused with 409 and changes nothing. -/
theorem C40_duplicates_refused {st : State Key} (h : LimReachable st) {kvs : KVs Key} {l : Int} (hk : ValidKVs kvs) (hl : ValidLimit l) :
    (∀ r ∈ (abs st).rules, sameKVs kvs r.kvs = true → ∃ st', Limiter.step st (.createRule kvs l) = some (st', .conflict) ∧ abs st' = abs st) ∧
    ∀ r ∈ (abs st).rules, ∀ o ∈ r.overrides, sameKVs kvs o.kvs = true →
      ∃ st', Limiter.step st (.createOverride r.id kvs l) = some (st', .conflict) ∧ abs st' = abs st := by
  have hs := h.inv.rinv'
  constructor
  · intro r hr hsame
    obtain ⟨st', out, e, h1, h2⟩ := C40_rule_requests h (op := .createRule kvs l) ⟨hk, hl⟩ trivial
    have : (abs st).rules.any (fun r => sameKVs kvs r.kvs) = true := List.any_eq_true.2 ⟨r, hr, hsame⟩
    simp only [specStep, this, if_true] at h1 h2
    cases out <;> simp [LimSpec.Same] at h2
    exact ⟨st', e, h1⟩
  · intro r hr o ho hsame
    obtain ⟨st', out, e, h1, h2⟩ := C40_rule_requests h (op := .createOverride r.id kvs l) ⟨hk, hl⟩ trivial
    have hfind : (abs st).rule? r.id = some r := by
      have hp := hs.runiq
      change (abs st).rules.Pairwise _ at hp
      unfold St.rule?
      clear h1 h2 e
      generalize (abs st).rules = rs at hr hp
      induction rs with
      | nil => cases hr
      | cons a rs ih =>
        rw [List.pairwise_cons] at hp
        rw [List.find?_cons]
        rcases List.mem_cons.1 hr with rfl | hr
        · simp
        · have := (hp.1 r hr).2
          simp only [show (a.id == r.id) = false by simpa using this]; exact ih hr hp.2
    have hoval := hs.oval r hr o ho
    have hsub := hs.okeys r hr o ho
    have hmem : ∀ k ∈ o.kvs.map (·.1), ∃ x ∈ kvs, x.1 = k := by
      intro k hk'
      obtain ⟨kv, hkv, rfl⟩ := List.mem_map.1 hk'
      have := sameKVs_symm hk hoval hsame
      unfold sameKVs at this
      rw [Bool.and_eq_true] at this
      obtain ⟨y, hy, e⟩ := List.any_eq_true.1 (List.all_eq_true.1 this.2 kv hkv)
      rw [Bool.and_eq_true, beq_iff_eq] at e
      exact ⟨y, hy, e.1.symm⟩
    have h3 : r.kvs.any (fun kv => !kvs.any (fun x => x.1 == kv.1)) = false := by
      rw [List.any_eq_false]
      intro kv hkv
      obtain ⟨x, hx, e⟩ := hmem kv.1 (hsub kv.1 (List.mem_map.2 ⟨kv, hkv, rfl⟩))
      simp only [Bool.not_eq_true', Bool.not_eq_false]
      exact List.any_eq_true.2 ⟨x, hx, by simpa using e⟩
    have h4 : kvs.any (fun kv => kv.1 == reservedID) = false := by
      rw [List.any_eq_false]
      intro kv hkv he
      rw [beq_iff_eq] at he
      refine hs.ores r hr o ho ?_
      unfold sameKVs at hsame
      rw [Bool.and_eq_true] at hsame
      obtain ⟨y, hy, e⟩ := List.any_eq_true.1 (List.all_eq_true.1 hsame.2 kv hkv)
      rw [Bool.and_eq_true, beq_iff_eq] at e
      exact List.mem_map.2 ⟨y, hy, by rw [← e.1, he]⟩
    have h5 : r.overrides.any (fun o => sameKVs kvs o.kvs) = true := List.any_eq_true.2 ⟨o, ho, hsame⟩
    simp only [specStep, hfind, h3, h4, h5, if_true, Bool.false_eq_true, if_false] at h1 h2
    cases out <;> simp [LimSpec.Same] at h2
    exact ⟨st', e, h1⟩

/-- C40.  Deleting a rule removes it and all its overrides, and nothing else: afterwards the rule and each of its overrides is not found, no later
history of valid requests brings the id back. -/
theorem C40_delete_rule {st : State Key} (h : LimReachable st) {ch : Choice Key} (hc : ValidChoice ch) {r : Rule} (hr : r ∈ (abs st).rules)
    {ops : List (Limiter.Op Key)} (hv : ∀ op ∈ ops, LimSpec.ValidOp op) :
    ∃ st1, Limiter.step st (.deleteRule ch r.id) = some (st1, .ok) ∧ (abs st1).rules = (abs st).rules.filter (fun x => x.id != r.id) ∧
      rel st1.overrides (idStr r.id) = none ∧
      ∃ st2 outs, Limiter.run st1 ops = some (st2, outs) ∧ (∀ x ∈ (abs st2).rules, x.id ≠ r.id) ∧ rel st2.overrides (idStr r.id) = none ∧
        Limiter.step st2 (.getRule r.id) = some (st2, .notFound) ∧ ∀ oid, Limiter.step st2 (.getOverride r.id oid) = some (st2, .notFound) := by
  have hI := h.inv
  have hs := hI.rinv'
  obtain ⟨st1, out, e, hI1, h1, h2⟩ := any_ruleStep hI (op := .deleteRule ch r.id) hc trivial
  have hfind : ((abs st).rule? r.id).isSome = true := by
    unfold St.rule?
    rw [List.find?_isSome]; exact ⟨r, hr, by simp⟩
  obtain ⟨r', hr'⟩ := Option.isSome_iff_exists.1 hfind
  simp only [specStep, hr'] at h1 h2
  have : out = .ok := by cases out <;> simp [LimSpec.Same] at h2; rfl
  subst this
  -- the id stays below the next one and is not used
  have hgone : ∀ {s : State Key}, RInv s → (∀ x ∈ (abs s).rules, x.id ≠ r.id) → rel s.overrides (idStr r.id) = none := by
    intro s hs hx
    cases hrel : rel s.overrides (idStr r.id) with
    | none => rfl
    | some t =>
      obtain ⟨i, hi, e⟩ := hs.own _ _ hrel
      exact absurd (idStr_inj e).symm (hx _ (List.mem_map.2 ⟨i, hi, rfl⟩))
  have hno1 : ∀ x ∈ (abs st1).rules, x.id ≠ r.id := by
    rw [h1]; intro x hx
    have := (List.mem_filter.1 hx).2
    simpa using this
  have hlt1 : r.id < (abs st1).nextId := by rw [h1]; exact hs.rfresh r hr
  refine ⟨st1, e, by rw [h1], hgone hI1 hno1, ?_⟩
  have later : ∀ (ops : List (Limiter.Op Key)) (s : State Key), (∀ op ∈ ops, LimSpec.ValidOp op) → RInv s → (∀ x ∈ (abs s).rules, x.id ≠ r.id) → r.id < (abs s).nextId →
      ∃ st2 outs, Limiter.run s ops = some (st2, outs) ∧ RInv st2 ∧ (∀ x ∈ (abs st2).rules, x.id ≠ r.id) := by
    intro ops
    induction ops with
    | nil => intro s _ hs hn _; exact ⟨s, [], rfl, hs, hn⟩
    | cons op ops ih =>
      intro s hv hs hn hlt
      obtain ⟨s1, out, e1, hs1, hr1, hn1, _⟩ := any_step hs (hv op (by simp))
      have hset : ∀ i F, (∀ y : Rule, (F y).id = y.id) → ∀ x ∈ ((abs s).setRule i F).rules, x.id ≠ r.id := by
        intro i F hF x hx
        obtain ⟨y, hy, rfl⟩ := List.mem_map.1 hx
        split
        · rw [hF]; exact hn y hy
        · exact hn y hy
      have key : (∀ x ∈ (specStep (abs s) op).1.rules, x.id ≠ r.id) ∧ r.id < (specStep (abs s) op).1.nextId := by
        cases op with
        | createRule kvs l =>
          simp only [specStep]
          split
          · exact ⟨hn, hlt⟩
          · refine ⟨?_, by simp only; omega⟩
            intro x hx
            rcases List.mem_append.1 hx with hx | hx
            · exact hn x hx
            · simp only [List.mem_singleton] at hx; subst hx; simp only; omega
        | getRule i => simp only [specStep]; split <;> exact ⟨hn, hlt⟩
        | updateRule i l =>
          simp only [specStep]; split
          · exact ⟨hn, hlt⟩
          · exact ⟨hset _ _ (fun _ => rfl), hlt⟩
        | deleteRule ch i =>
          simp only [specStep]; split
          · exact ⟨hn, hlt⟩
          · exact ⟨fun x hx => hn x (List.mem_filter.1 hx).1, hlt⟩
        | createOverride i kvs l =>
          simp only [specStep]; repeat' split
          all_goals first | exact ⟨hn, hlt⟩ | exact ⟨hset _ _ (fun _ => rfl), hlt⟩
        | getOverride i j => simp only [specStep]; repeat' split
                             all_goals exact ⟨hn, hlt⟩
        | updateOverride i j l =>
          simp only [specStep]; repeat' split
          all_goals first | exact ⟨hn, hlt⟩ | exact ⟨hset _ _ (fun _ => rfl), hlt⟩
        | deleteOverride i j =>
          simp only [specStep]; split
          · exact ⟨hn, hlt⟩
          · exact ⟨hset _ _ (fun _ => rfl), hlt⟩
        | upsert ch k c => simp only [specStep]; repeat' split
                           all_goals exact ⟨hn, hlt⟩
        | setCounter k c => simp only [specStep]; split <;> exact ⟨hn, hlt⟩
        | queryCounters q => exact ⟨hn, hlt⟩
      obtain ⟨s2, outs, e2, h2, h3⟩ := ih s1 (fun op' ho => hv op' (by simp [ho])) hs1 (by rw [hr1]; exact key.1) (by rw [hn1]; exact key.2)
      exact ⟨s2, out :: outs, by simp [Limiter.run, e1, e2], h2, h3⟩
  obtain ⟨st2, outs, e2, hI2, hno2⟩ := later ops st1 hv hI1 hno1 hlt1
  have hit : st2.rules.itemById r.id = none := by
    cases hit : st2.rules.itemById r.id with
    | none => rfl
    | some i =>
      obtain ⟨him, e⟩ := itemById_some hit
      exact absurd e (hno2 _ (List.mem_map.2 ⟨i, him, rfl⟩))
  refine ⟨st2, outs, e2, hno2, hgone hI2 hno2, ?_, ?_⟩
  · simp only [Limiter.step, Limiter.getRule, queryAction_id hI2.rinv, hit, Option.toList_none]
  · intro oid
    simp only [Limiter.step, Limiter.getOverride, queryAction_id hI2.rinv, hit, Option.toList_none]

/-- Non-vacuity of C40: deleting rule 1 of the examples removes its two overrides; creating a rule with the same key-values gives a new id without
overrides. -/
example : ((Limiter.run limState [.getOverride 1 1, .createRule [(sa, ki 2)] 9, .createOverride 1 [(sb, kany), (sa, ki 2)] 9, .createOverride 1 [(sb, kany)] 9,
      .deleteRule {} 1, .getRule 1, .getOverride 1 1, .createRule [(sa, ki 2)] 9, .getOverride 2 1]).map (fun r => r.2.map outCode)) =
    some [202, 409, 409, 400, 200, 404, 404, 201, 404] ∧ (abs limState).rules.length = 2 := by decide +kernel

end Willow.Props
