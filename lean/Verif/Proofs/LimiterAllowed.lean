import Verif.Proofs.LimiterBase
/-! The decision of an increment: accepted iff every effective limit is -1 or not reached. -/
namespace Willow.Limiter
open Willow Willow.Assoc Willow.Spec Willow.OTM Willow.OTMSpec Willow.LimSpec KeyOps BTree

/-- The invariant of the limiter that no overflow can break. -/
structure RInv (st : State Key) : Prop where
  rinv : Assoc.Inv st.rules
  cinv : Assoc.Inv st.counters
  ouniq : Uniq seq st.overrides
  oinv : ∀ b t, rel st.overrides b = some t → Assoc.Inv t
  otag : ∀ b t, rel st.overrides b = some t → Tagged b (plain t)
  own : ∀ b t, rel st.overrides b = some t → ∃ i ∈ st.rules.items, b = idStr i.id
  rlim : ∀ i ∈ st.rules.items, ValidLimit i.value
  olim : ∀ b t, rel st.overrides b = some t → ∀ j ∈ t.items, ValidLimit j.value.value
  sup : ∀ i ∈ st.rules.items, ∀ t, rel st.overrides (idStr i.id) = some t → ∀ j ∈ t.items, missesKey i.kvs j.kvs = false
  ctyp : ∀ i ∈ st.counters.items, Typed i.kvs

/-- The invariant of the limiter; `B` bounds the sum of all counters. -/
structure LInv (st : State Key) (B : Int) : Prop extends RInv st where
  cpos : ∀ i ∈ st.counters.items, 0 < i.value
  csum : (st.counters.items.map (·.value)).sum ≤ B

/-- The overrides tree on its own. -/
theorem RInv.osim {st : State Key} (h : RInv st) : OTM.Sim st.overrides (fun b => (rel st.overrides b).map plain) :=
  ⟨h.ouniq, h.oinv, fun _ => rfl⟩

theorem idStr_ne (id : Nat) : idStr id ≠ [] := by simp [idStr, List.replicate_succ]
theorem idStr_inj {a b : Nat} (h : idStr a = idStr b) : a = b := by
  have := congrArg List.length h; simpa [idStr] using this

/-! ### visited -/

theorem mem_visited {A : Type} {p : A → Bool} {x : A} : ∀ {l : List A}, x ∈ visited p l → x ∈ l
  | [], h => h
  | a :: l, h => by
    unfold visited at h
    split at h
    · rcases List.mem_cons.1 h with rfl | h
      · simp
      · exact List.mem_cons_of_mem _ (mem_visited h)
    · simp at h; simp [h]

theorem visited_all_or {A : Type} {p : A → Bool} : ∀ {l : List A}, visited p l = l ∨ ∃ x ∈ visited p l, p x = false
  | [] => .inl rfl
  | a :: l => by
    unfold visited
    split
    · rename_i h
      rcases visited_all_or (p := p) (l := l) with e | ⟨x, hx, hp⟩
      · left; rw [e]
      · right; exact ⟨x, List.mem_cons_of_mem _ hx, hp⟩
    · rename_i h; right; exact ⟨a, by simp, by simpa using h⟩

theorem visited_nil {A : Type} {p : A → Bool} {l : List A} : visited p l = [] ↔ l = [] := by
  cases l with
  | nil => simp [visited]
  | cons a l => unfold visited; split <;> simp

/-! ### The limits found -/

/-- `ls` stands for the limits `eff`: it contains only such limits, and all of them unless it contains a 0. -/
def Covers (ls eff : List (List GoString × Int)) : Prop :=
  (∀ x ∈ ls, x ∈ eff) ∧ ((∃ x ∈ ls, x.2 = 0) ∨ ∀ x ∈ eff, x ∈ ls)

/-- Keys and limit of an override. -/
def kl (o : Override) : List GoString × Int := (o.kvs.map (·.1), o.limit)

theorem findOverrideLimits_spec {st : State Key} (h : RInv st) {ch : Choice Key} (hc : ValidChoice ch) (id : Nat) {kvs : KVs Key}
    (hv : ValidKVs kvs) (ht : Typed kvs) :
    ∃ os, findOverrideLimits st ch id kvs = some (some os) ∧
      (os = [] ↔ (ovs st.overrides id).filter (fun o => applies o.kvs kvs) = []) ∧
      Covers os (((ovs st.overrides id).filter (fun o => applies o.kvs kvs)).map kl) := by
  obtain ⟨o', out, e, hs, hsame⟩ := step_sim h.osim (op := .matchAction (idStr id) ch.shuffle (anyMatchQuery kvs))
    ⟨validMatch_any hv, .inr rfl, hc.1⟩
  simp only [famStep, relStep, relStep.visit, OOp.one, if_neg (idStr_ne id)] at hsame
  unfold findOverrideLimits
  rw [show OTM.matchAction st.overrides (idStr id) ch.shuffle (anyMatchQuery kvs) = some (o', out) from e]
  have key : ∃ l, out = .visited l ∧ (l.map (fun x => (⟨x.manyID, x.kvs, x.value⟩ : Override))).Perm ((ovs st.overrides id).filter (fun o => applies o.kvs kvs)) := by
    unfold ovs
    cases hr : rel st.overrides (idStr id) with
    | none =>
      rw [hr] at hsame
      cases out <;> simp [OTMSpec.Same] at hsame
      exact ⟨_, rfl, by simp [hsame]⟩
    | some t =>
      rw [hr] at hsame
      cases out <;> simp [OTMSpec.Same, plain] at hsame
      rename_i l
      refine ⟨l, rfl, ?_⟩
      have hp := hsame.map (fun x => (⟨x.manyID, x.kvs, x.value⟩ : Override))
      refine hp.trans (List.Perm.of_eq ?_)
      rw [List.map_map]
      rw [List.filter_map]
      have hf : t.items.filter (fun i => covered (anyMatchQuery kvs) i.kvs) = t.items.filter (fun i => applies i.kvs kvs) :=
        List.filter_congr (fun i _ => covered_any hv ht)
      rw [hf]
      simp only [Function.comp_def]
      apply List.map_congr_left
      intro i hi
      have := h.otag _ _ hr i (List.mem_filter.1 hi).1
      simp [this.2.1, this.2.2.1]
  obtain ⟨l, rfl, hp⟩ := key
  simp only
  have hp' : ((ch.overrides l).map (fun x => (x.kvs.map (·.1), x.value))).Perm (((ovs st.overrides id).filter (fun o => applies o.kvs kvs)).map kl) := by
    have := (hp.map kl)
    rw [List.map_map] at this
    exact ((hc.2.2.1 l).map _).trans this
  refine ⟨_, rfl, ?_, ?_, ?_⟩
  · rw [List.map_eq_nil_iff, visited_nil]
    have := hp'.length_eq
    simp only [List.length_map] at this
    rw [← List.length_eq_zero_iff, ← List.length_eq_zero_iff]; omega
  · intro x hx
    obtain ⟨y, hy, rfl⟩ := List.mem_map.1 hx
    exact hp'.mem_iff.1 (List.mem_map.2 ⟨y, mem_visited hy, rfl⟩)
  · rcases visited_all_or (p := fun (x : OItem Key Int) => x.value != 0) (l := ch.overrides l) with e | ⟨x, hx, hz⟩
    · right; rw [e]; intro x hx; exact hp'.mem_iff.2 hx
    · left; exact ⟨_, List.mem_map.2 ⟨x, hx, rfl⟩, by simpa using hz⟩

/-- The limits of one found rule. -/
theorem found_limits {r : Rule} {kvs : KVs Key} (ha : applies r.kvs kvs = true) {os : List (List GoString × Int)}
    (h1 : os = [] ↔ r.overrides.filter (fun o => applies o.kvs kvs) = [])
    (h2 : Covers os ((r.overrides.filter (fun o => applies o.kvs kvs)).map kl)) :
    Covers (Found.limits ⟨r.id, r.kvs.map (·.1), r.limit, os⟩) (ruleLimits kvs r) := by
  unfold Found.limits ruleLimits
  rw [if_pos ha]
  simp only
  cases hf : r.overrides.filter (fun o => applies o.kvs kvs) with
  | nil =>
    have := h1.2 hf; subst this
    simp [Covers]
  | cons x xs =>
    have : os ≠ [] := fun e => by have := h1.1 e; rw [hf] at this; cases this
    rw [hf] at h2
    have hb : os.isEmpty = false := by simpa using this
    simp only [hb]
    exact h2

theorem Covers.append {a b c d : List (List GoString × Int)} (h1 : Covers a b) (h2 : Covers c d) : Covers (a ++ c) (b ++ d) := by
  refine ⟨?_, ?_⟩
  · intro x hx
    rcases List.mem_append.1 hx with h | h
    · exact List.mem_append_left _ (h1.1 x h)
    · exact List.mem_append_right _ (h2.1 x h)
  · rcases h1.2 with ⟨x, hx, h⟩ | h
    · exact .inl ⟨x, List.mem_append_left _ hx, h⟩
    rcases h2.2 with ⟨x, hx, h'⟩ | h'
    · exact .inl ⟨x, List.mem_append_right _ hx, h'⟩
    right
    intro x hx
    rcases List.mem_append.1 hx with hx | hx
    · exact List.mem_append_left _ (h x hx)
    · exact List.mem_append_right _ (h' x hx)

/-- A rule at which the iteration stops has a limit of 0. -/
theorem stop_zero {r : Found} (h : ruleGoesOn r = false) : ∃ x ∈ r.limits, x.2 = 0 := by
  unfold ruleGoesOn at h
  unfold Found.limits
  cases hl : r.overrides.getLast? with
  | none =>
    rw [hl] at h
    have := List.getLast?_eq_none_iff.1 hl
    simp only [this, List.isEmpty_nil, if_true]
    exact ⟨_, List.mem_singleton.2 rfl, by simpa using h⟩
  | some o =>
    rw [hl] at h
    have hm := List.mem_of_getLast? hl
    have : r.overrides.isEmpty = false := by
      cases hr : r.overrides with
      | nil => rw [hr] at hm; cases hm
      | cons => rfl
    simp only [this]
    simp at h
    exact ⟨o, hm, h.2⟩

theorem findLimitsLoop_spec {st : State Key} (h : RInv st) {ch : Choice Key} (hc : ValidChoice ch) {kvs : KVs Key}
    (hv : ValidKVs kvs) (ht : Typed kvs) : ∀ (is : List (Item Key Int)), (∀ i ∈ is, applies i.kvs kvs = true) →
    ∃ rs, findLimitsLoop st ch kvs is = some (some rs) ∧ Covers (rs.flatMap Found.limits) ((is.map (absRule st.overrides)).flatMap (ruleLimits kvs))
  | [], _ => ⟨[], rfl, by simp [Covers]⟩
  | i :: is, ha => by
    obtain ⟨os, e, h1, h2⟩ := findOverrideLimits_spec h hc i.id hv ht
    have hcov := found_limits (r := absRule st.overrides i) (kvs := kvs) (ha i (by simp)) h1 h2
    simp only [findLimitsLoop, e]
    cases hg : ruleGoesOn ⟨i.id, i.kvs.map (·.1), i.value, os⟩
    · simp only [Bool.false_eq_true, if_false]
      refine ⟨_, rfl, ?_⟩
      obtain ⟨x, hx, hz⟩ := stop_zero hg
      simp only [List.map_cons, List.flatMap_cons, List.flatMap_nil, List.append_nil]
      exact ⟨fun y hy => List.mem_append_left _ (hcov.1 y hy), .inl ⟨x, hx, hz⟩⟩
    · simp only [if_true]
      obtain ⟨rs, e2, hcr⟩ := findLimitsLoop_spec h hc hv ht is (fun j hj => ha j (by simp [hj]))
      rw [e2]
      refine ⟨_, rfl, ?_⟩
      simp only [List.map_cons, List.flatMap_cons]
      exact hcov.append hcr

theorem findLimits_spec {st : State Key} (h : RInv st) {ch : Choice Key} (hc : ValidChoice ch) {kvs : KVs Key}
    (hv : ValidKVs kvs) (ht : Typed kvs) :
    ∃ rs, findLimits st ch kvs = some (some rs) ∧ Covers (rs.flatMap Found.limits) (effective (abs st).rules kvs) := by
  rcases matchAction_spec h.rinv (validMatch_any hv) hc.1 with ⟨l, e, _, hp⟩ | ⟨_, _, hx⟩
  rotate_left
  · exact absurd rfl hx
  have hf : st.rules.items.filter (fun i => covered (anyMatchQuery kvs) i.kvs) = st.rules.items.filter (fun i => applies i.kvs kvs) :=
    List.filter_congr (fun i _ => covered_any hv ht)
  rw [hf] at hp
  have hp2 := (hc.2.1 l).trans hp
  obtain ⟨rs, e2, hcr⟩ := findLimitsLoop_spec h hc hv ht (ch.rules l) (fun i hi => by
    have := hp2.mem_iff.1 hi; exact (List.mem_filter.1 this).2)
  refine ⟨rs, by unfold findLimits; rw [e]; exact e2, ?_⟩
  have hmem : ∀ x, x ∈ ((ch.rules l).map (absRule st.overrides)).flatMap (ruleLimits kvs) ↔ x ∈ effective (abs st).rules kvs := by
    intro x
    unfold effective abs
    simp only [List.mem_flatMap, List.mem_map]
    constructor
    · rintro ⟨r, ⟨i, hi, rfl⟩, hx⟩
      exact ⟨_, ⟨i, (List.mem_filter.1 (hp2.mem_iff.1 hi)).1, rfl⟩, hx⟩
    · rintro ⟨r, ⟨i, hi, rfl⟩, hx⟩
      by_cases ha : applies i.kvs kvs = true
      · exact ⟨_, ⟨i, hp2.mem_iff.2 (List.mem_filter.2 ⟨hi, ha⟩), rfl⟩, hx⟩
      · unfold ruleLimits at hx
        simp [absRule, ha] at hx
  exact ⟨fun x hx => (hmem x).1 (hcr.1 x hx), hcr.2.imp_right (fun hh x hx => hh x ((hmem x).2 hx))⟩

/-! ### The check -/

/-- Every effective limit belongs to keys the counter has; it is a valid limit. -/
theorem effective_mem {st : State Key} (h : RInv st) {kvs : KVs Key} {x : List GoString × Int} (hx : x ∈ effective (abs st).rules kvs) :
    x.1 ≠ [] ∧ (∀ k ∈ x.1, ∃ v, valueOf kvs k = some v) ∧ ValidLimit x.2 := by
  obtain ⟨r, hr, hx⟩ := List.mem_flatMap.1 hx
  obtain ⟨i, hi, rfl⟩ := List.mem_map.1 hr
  unfold ruleLimits at hx
  split at hx
  rotate_left
  · cases hx
  rename_i ha
  split at hx
  · simp only [List.mem_singleton] at hx; subst hx
    exact ⟨by simpa [absRule] using (h.rinv.valid hi).1, fun k hk => applies_keys ha hk, h.rlim i hi⟩
  · obtain ⟨o, ho, rfl⟩ := List.mem_map.1 hx
    obtain ⟨ho, hoa⟩ := List.mem_filter.1 ho
    simp only [absRule, ovs] at ho
    split at ho
    · rename_i t hr
      obtain ⟨j, hj, rfl⟩ := List.mem_map.1 ho
      exact ⟨by simpa using ((h.oinv _ _ hr).valid hj).1, fun k hk => applies_keys hoa hk, h.olim _ _ hr j hj⟩
    · cases ho

theorem pos_sum_filter {l : List (Item Key Int)} (p : Item Key Int → Bool) (h : ∀ i ∈ l, 0 < i.value) :
    ((l.filter p).map (·.value)).sum ≤ (l.map (·.value)).sum := by
  induction l with
  | nil => simp
  | cons a l ih =>
    have := ih (fun i hi => h i (by simp [hi]))
    have ha := h a (by simp)
    rw [List.filter_cons]
    split <;> simp only [List.map_cons, List.sum_cons] <;> omega

theorem groupTotal_abs (l : List (Item Key Int)) (keys : List GoString) (kvs : KVs Key) :
    groupTotal (l.map absCounter) keys kvs = ((l.filter (fun i => agree keys kvs i.kvs)).map (·.value)).sum := by
  unfold groupTotal
  rw [List.filter_map, List.map_map]
  rfl

theorem groupTotal_nonneg {st : State Key} {B : Int} (h : LInv st B) (keys : List GoString) (kvs : KVs Key) :
    0 ≤ groupTotal (abs st).counters keys kvs := by
  show 0 ≤ groupTotal (st.counters.items.map absCounter) keys kvs
  rw [groupTotal_abs]
  apply sum_nonneg
  intro v hv
  obtain ⟨i, hi, rfl⟩ := List.mem_map.1 hv
  exact h.cpos i (List.mem_filter.1 hi).1

theorem checkCounters_spec {st : State Key} {B : Int} (h : LInv st B) (hB : B < 2 ^ 63) {ch : Choice Key} (hc : ValidChoice ch) {kvs : KVs Key}
    (hv : ValidKVs kvs) (ht : Typed kvs) {keys : List GoString} (hne : keys ≠ []) (hk : ∀ k ∈ keys, ∃ v, valueOf kvs k = some v) (limit : Int) :
    checkCounters st ch keys kvs limit = some (decide (groupTotal (abs st).counters keys kvs < limit)) := by
  obtain ⟨l, e, hp⟩ := queryAction_spec h.cinv (checkQuery_ok hv hne hk) (.inr (by simp [Asks, checkQuery]))
  unfold checkCounters
  rw [e]
  have hf : st.counters.items.filter (satisfies (checkQuery keys kvs)) = st.counters.items.filter (fun i => agree keys kvs i.kvs) :=
    List.filter_congr (fun i _ => satisfies_check hv ht hk i)
  rw [hf] at hp
  have hp2 := ((hc.2.2.2.1 l).trans hp).map (·.value)
  have hsum := perm_sum hp2
  have hpos : ∀ v ∈ (ch.counters l).map (·.value), 0 < v := by
    intro v hv
    obtain ⟨i, hi, rfl⟩ := List.mem_map.1 (hp2.mem_iff.1 hv)
    exact h.cpos i (List.mem_filter.1 hi).1
  have hle := pos_sum_filter (fun i => agree keys kvs i.kvs) h.cpos
  have := h.csum
  simp only
  rw [sumUntil_lt (by omega) hpos (by omega)]
  rw [hsum]
  show _ = some (decide (groupTotal (st.counters.items.map absCounter) keys kvs < limit))
  rw [groupTotal_abs, Int.zero_add]

/-- The test of one limit. -/
def okLimit (st : State Key) (kvs : KVs Key) (x : List GoString × Int) : Bool := x.2 == -1 || decide (groupTotal (abs st).counters x.1 kvs < x.2)

theorem checkAll_spec {st : State Key} {B : Int} (h : LInv st B) (hB : B < 2 ^ 63) {ch : Choice Key} (hc : ValidChoice ch) {kvs : KVs Key}
    (hv : ValidKVs kvs) (ht : Typed kvs) : ∀ (ls : List (List GoString × Int)), (∀ x ∈ ls, x ∈ effective (abs st).rules kvs) →
    checkAll st ch kvs ls = some (ls.all (okLimit st kvs))
  | [], _ => rfl
  | (keys, limit) :: ls, hm => by
    obtain ⟨h1, h2, _⟩ := effective_mem h.toRInv (hm (keys, limit) (by simp))
    have ih := checkAll_spec h hB hc hv ht ls (fun x hx => hm x (by simp [hx]))
    unfold checkAll
    simp only [List.all_cons, okLimit]
    cases hl : (limit == -1)
    · simp only [Bool.false_eq_true, if_false, Bool.false_or]
      rw [checkCounters_spec h hB hc hv ht h1 h2]
      cases decide (groupTotal (abs st).counters keys kvs < limit)
      · rfl
      · simp only [Bool.true_and]; exact ih
    · simp only [if_true, Bool.true_or, Bool.true_and]; exact ih

/-- The decision. -/
theorem increment_eq {st : State Key} {B : Int} (h : LInv st B) (hB : B < 2 ^ 63) {ch : Choice Key} (hc : ValidChoice ch) {kvs : KVs Key}
    (hv : ValidKVs kvs) (ht : Typed kvs) (c : Int) :
    increment st ch kvs c = if allowed (abs st) kvs then addCounter st kvs c else some (st, .conflict) := by
  obtain ⟨rs, e, hsub, hall⟩ := findLimits_spec h.toRInv hc hv ht
  have hallow : allowed (abs st) kvs = (effective (abs st).rules kvs).all (okLimit st kvs) := rfl
  have hzero : ∀ x ∈ rs.flatMap Found.limits, x.2 = 0 → allowed (abs st) kvs = false := by
    intro x hx hz
    rw [hallow, List.all_eq_false]
    refine ⟨x, hsub x hx, ?_⟩
    have := groupTotal_nonneg h x.1 kvs
    simp only [okLimit, hz]
    simp; omega
  unfold increment
  rw [e]
  simp only
  by_cases hl : lastIsZero rs = true
  · rw [if_pos hl]
    have : ∃ x ∈ rs.flatMap Found.limits, x.2 = 0 := by
      unfold lastIsZero at hl
      split at hl
      · cases hl
      · rename_i r hr
        split at hl
        · rename_i l hl'
          exact ⟨l, List.mem_flatMap.2 ⟨r, List.mem_of_getLast? hr, List.mem_of_getLast? hl'⟩, by simpa using hl⟩
        · cases hl
    obtain ⟨x, hx, hz⟩ := this
    rw [hzero x hx hz]; rfl
  rw [if_neg hl]
  by_cases hlim : limited rs = true
  · rw [if_pos hlim, checkAll_spec h hB hc hv ht _ hsub]
    cases hA : (rs.flatMap Found.limits).all (okLimit st kvs)
    · simp only
      have : allowed (abs st) kvs = false := by
        obtain ⟨x, hx, hf⟩ := List.all_eq_false.1 hA
        rw [hallow, List.all_eq_false]
        exact ⟨x, hsub x hx, hf⟩
      rw [this]; rfl
    · simp only
      rcases hall with ⟨x, hx, hz⟩ | hall
      · exfalso
        have := List.all_eq_true.1 hA x hx
        have h0 := groupTotal_nonneg h x.1 kvs
        simp only [okLimit, hz] at this
        simp at this; omega
      · have : allowed (abs st) kvs = true := by
          rw [hallow, List.all_eq_true]
          exact fun x hx => List.all_eq_true.1 hA x (hall x hx)
        rw [this]; rfl
  · rw [if_neg hlim]
    have hall1 : ∀ x ∈ rs.flatMap Found.limits, x.2 = -1 := by
      intro x hx
      obtain ⟨r, hr, hx⟩ := List.mem_flatMap.1 hx
      simp only [limited, List.any_eq_true, not_exists, not_and, bne_iff_ne, ne_eq, Decidable.not_not] at hlim
      exact hlim r hr x hx
    rcases hall with ⟨x, hx, hz⟩ | hall
    · have := hall1 x hx; omega
    · have : allowed (abs st) kvs = true := by
        rw [hallow, List.all_eq_true]
        intro x hx
        simp [okLimit, hall1 x (hall x hx)]
      rw [this]; rfl

end Willow.Limiter
