import Verif.Proofs.LimiterTotals
/-! What holds of the limiter after any history, also when counters overflow. -/
namespace Willow.Limiter
open Willow Willow.Assoc Willow.Spec Willow.OTM Willow.OTMSpec Willow.LimSpec KeyOps BTree

theorem step_counters {st : State Key} {op : Op Key} (h : OnRules op) (c : ATree Key Int) :
    step { st with counters := c } op = (step st op).map (fun x => ({ x.1 with counters := c }, x.2)) := by
  cases op <;> simp only [OnRules] at h <;>
    simp only [step, createRule, getRule, updateRule, deleteRule, createOverride, getOverride, updateOverride, deleteOverride] <;>
    (repeat' split) <;> simp_all

theorem specStep_counters {st : St} {op : Op Key} (h : OnRules op) (c : List Counter) :
    specStep { st with counters := c } op = ({ (specStep st op).1 with counters := c }, (specStep st op).2) := by
  cases op <;> simp only [OnRules] at h <;>
    simp only [specStep, St.rule?, St.setRule] <;> (repeat' split) <;> simp_all

theorem RInv.counters {st : State Key} (h : RInv st) {t : ATree Key Int} (hi : Assoc.Inv t) (ht : ∀ i ∈ t.items, Typed i.kvs) : RInv { st with counters := t } :=
  { h with cinv := hi, ctyp := ht }

theorem any_ruleStep {st : State Key} (h : RInv st) {op : Op Key} (hv : LimSpec.ValidOp op) (hr : OnRules op) :
    ∃ st' out, step st op = some (st', out) ∧ RInv st' ∧ abs st' = (specStep (abs st) op).1 ∧ LimSpec.Same out (specStep (abs st) op).2 := by
  have h0 : LInv { st with counters := ATree.new } 0 :=
    ⟨h.counters inv_new (by simp [ATree.new]), by simp [ATree.new], by simp [ATree.new]⟩
  have ha : amount op = 0 := by cases op <;> simp only [OnRules] at hr <;> rfl
  obtain ⟨st1, out, e, hI, hab, hs⟩ := sim_step h0 hv (by rw [ha]; decide)
  rw [step_counters hr] at e
  cases e' : step st op with
  | none => rw [e'] at e; cases e
  | some x =>
    obtain ⟨st', out'⟩ := x
    have hc := step_counters (st := st) hr st.counters
    rw [show ({ st with counters := st.counters } : State Key) = st from rfl, e'] at hc
    rw [e'] at e
    simp only [Option.map_some, Option.some.injEq, Prod.mk.injEq] at e hc
    obtain ⟨rfl, rfl⟩ := e
    have hcs : st'.counters = st.counters := by rw [hc.1]
    have hsp := specStep_counters (st := abs st) hr []
    have habs0 : abs { st with counters := ATree.new } = { abs st with counters := [] } := rfl
    rw [habs0, hsp] at hab hs
    refine ⟨st', out', rfl, ?_, ?_, hs⟩
    · have := hI.toRInv
      have := this.counters (t := st'.counters) (by rw [hcs]; exact h.cinv) (by rw [hcs]; exact h.ctyp)
      exact this
    · have h1 : (abs st').rules = (specStep (abs st) op).1.rules := (congrArg St.rules hab :)
      have h2 : (abs st').nextId = (specStep (abs st) op).1.nextId := (congrArg St.nextId hab :)
      have h3 : (abs st').counters = (specStep (abs st) op).1.counters := by
        have := specStep_counters (st := abs st) hr (abs st).counters
        have := congrArg (fun x => St.counters x.1) this
        simp only at this
        rw [show ({ abs st with counters := (abs st).counters } : St) = abs st from rfl] at this
        rw [this]
        simp only [abs, hcs]
      have ext : ∀ a b : St, a.rules = b.rules → a.nextId = b.nextId → a.counters = b.counters → a = b := by
        rintro ⟨_, _, _⟩ ⟨_, _, _⟩ rfl rfl rfl; rfl
      exact ext _ _ h1 h2 h3

theorem put_any {st : State Key} (h : RInv st) {kvs : KVs Key} (hv : ValidKVs kvs) (ht : Typed kvs) (c : Int) (f : Int → Int) :
    ∃ t o, st.counters.createOrFind kvs (some c) = some (t, o) ∧
      RInv { st with counters := (match o with | .found i => modify t i.id f | _ => t) } := by
  obtain ⟨t, o, e, hI, hs⟩ := h.cinv.createOrFind hv (some c)
  refine ⟨t, o, e, ?_⟩
  have htt : ∀ i ∈ t.items, Typed i.kvs := by
    simp only [storeStep] at hs
    cases hfi : st.counters.items.find? (fun i => sameKVs kvs i.kvs) with
    | none =>
      rw [hfi] at hs
      simp only [Prod.mk.injEq, Store.mk.injEq] at hs
      intro i hi
      rw [← hs.1.1] at hi
      rcases List.mem_append.1 hi with hi | hi
      · exact h.ctyp i hi
      · simp only [List.mem_singleton] at hi; subst hi; exact ht
    | some x =>
      rw [hfi] at hs
      simp only [Prod.mk.injEq, Store.mk.injEq] at hs
      rw [← hs.1.1]; exact h.ctyp
  cases o with
  | found i =>
    refine h.counters (inv_modify hI _ _) ?_
    intro x hx
    obtain ⟨j, hj, _, e, _⟩ := mem_modify hx
    rw [e]; exact htt j hj
  | _ => exact h.counters hI htt

theorem add_any {st : State Key} (h : RInv st) {kvs : KVs Key} (hv : ValidKVs kvs) (ht : Typed kvs) (c : Int) :
    ∃ st', addCounter st kvs c = some (st', .ok) ∧ RInv st' ∧ st'.rules = st.rules ∧ st'.overrides = st.overrides := by
  obtain ⟨t, o, e, hI⟩ := put_any h hv ht c (fun v => add64 v c)
  unfold addCounter
  rw [e]
  cases o <;> exact ⟨_, rfl, hI, rfl, rfl⟩

theorem delete_items {st : State Key} (h : RInv st) {kvs : KVs Key} (hv : ValidKVs kvs) (f : Item Key Int → Bool) :
    RInv { st with counters := (st.counters.delete kvs (some f)).1 } := by
  obtain ⟨hI, hs⟩ := h.cinv.delete hv (some f)
  generalize st.counters.delete kvs (some f) = r at hI hs
  obtain ⟨t, o⟩ := r
  refine h.counters hI ?_
  simp only [Store.remove] at hs
  intro j hj
  cases hfi : st.counters.items.find? (fun i => sameKVs kvs i.kvs) with
  | none =>
    rw [hfi] at hs
    simp only [Prod.mk.injEq, Store.mk.injEq] at hs
    exact h.ctyp j (by rw [hs.1.1]; exact hj)
  | some i =>
    rw [hfi] at hs
    simp only at hs
    split at hs
    · simp only [Prod.mk.injEq, Store.mk.injEq] at hs
      simp only at hj
      rw [← hs.1.1] at hj
      exact h.ctyp j (List.mem_filter.1 hj).1
    · simp only [Prod.mk.injEq, Store.mk.injEq] at hs
      exact h.ctyp j (by rw [hs.1.1]; exact hj)

theorem checkAll_any {st : State Key} (h : RInv st) {ch : Choice Key} {kvs : KVs Key}
    (hv : ValidKVs kvs) : ∀ (ls : List (List GoString × Int)), (∀ x ∈ ls, x ∈ effective (abs st).rules kvs) → ∃ b, checkAll st ch kvs ls = some b
  | [], _ => ⟨_, rfl⟩
  | (keys, limit) :: ls, hm => by
    obtain ⟨h1, h2, _⟩ := effective_mem h (hm (keys, limit) (by simp))
    obtain ⟨b, ih⟩ := checkAll_any h hv ls (fun x hx => hm x (by simp [hx]))
    obtain ⟨l, e, hp⟩ := queryAction_spec h.cinv (checkQuery_ok hv h1 h2) (.inr (by simp [Asks, checkQuery]))
    unfold checkAll checkCounters
    rw [e]
    simp only
    split
    · exact ⟨b, ih⟩
    · split
      · rename_i hh; cases hh
      · exact ⟨_, rfl⟩
      · exact ⟨b, ih⟩

/-- An increment, whatever the counters are: accepted or refused; with no limit but -1 it is accepted. -/
theorem increment_any {st : State Key} (h : RInv st) {ch : Choice Key} (hc : ValidChoice ch) {kvs : KVs Key} (hv : ValidKVs kvs) (ht : Typed kvs) (c : Int) :
    (increment st ch kvs c = addCounter st kvs c ∨
      (increment st ch kvs c = some (st, .conflict) ∧ ∃ x ∈ effective (abs st).rules kvs, x.2 ≠ -1)) := by
  obtain ⟨rs, e, hsub, hall⟩ := findLimits_spec h hc hv ht
  unfold increment
  rw [e]
  simp only
  by_cases hl : lastIsZero rs = true
  · rw [if_pos hl]
    right
    refine ⟨rfl, ?_⟩
    unfold lastIsZero at hl
    split at hl
    · cases hl
    · rename_i r hr
      split at hl
      · rename_i l hl'
        have hz : l.2 = 0 := by simpa using hl
        exact ⟨l, hsub _ (List.mem_flatMap.2 ⟨r, List.mem_of_getLast? hr, List.mem_of_getLast? hl'⟩), by omega⟩
      · cases hl
  rw [if_neg hl]
  by_cases hlim : limited rs = true
  · rw [if_pos hlim]
    obtain ⟨b, hb⟩ := checkAll_any h (ch := ch) hv _ hsub
    rw [hb]
    cases b
    · right
      refine ⟨rfl, ?_⟩
      simp only [limited, List.any_eq_true, bne_iff_ne, ne_eq] at hlim
      obtain ⟨r, hr, x, hx, hne⟩ := hlim
      exact ⟨x, hsub _ (List.mem_flatMap.2 ⟨r, hr, hx⟩), hne⟩
    · left; rfl
  · rw [if_neg hlim]; left; rfl

theorem any_step {st : State Key} (h : RInv st) {op : Op Key} (hv : LimSpec.ValidOp op) :
    ∃ st' out, step st op = some (st', out) ∧ RInv st' ∧ (abs st').rules = (specStep (abs st) op).1.rules ∧ (abs st').nextId = (specStep (abs st) op).1.nextId ∧
      (OnRules op → LimSpec.Same out (specStep (abs st) op).2) := by
  by_cases hr : OnRules op
  · obtain ⟨st', out, e, h1, h2, h3⟩ := any_ruleStep h hv hr
    exact ⟨st', out, e, h1, by rw [h2], by rw [h2], fun _ => h3⟩
  · have fin : ∀ {st' out}, step st op = some (st', out) → RInv st' → st'.rules = st.rules → st'.overrides = st.overrides →
        (specStep (abs st) op).1.rules = (abs st).rules → (specStep (abs st) op).1.nextId = (abs st).nextId →
        ∃ st' out, step st op = some (st', out) ∧ RInv st' ∧ (abs st').rules = (specStep (abs st) op).1.rules ∧ (abs st').nextId = (specStep (abs st) op).1.nextId ∧
          (OnRules op → LimSpec.Same out (specStep (abs st) op).2) := by
      intro st' out e h1 h2 h3 h4 h5
      refine ⟨st', out, e, h1, ?_, ?_, fun x => absurd x hr⟩
      · rw [h4]; simp only [abs, h2, h3]
      · rw [h5]; simp only [abs, h2]
    have hr1 : (specStep (abs st) op).1.rules = (abs st).rules ∧ (specStep (abs st) op).1.nextId = (abs st).nextId := by
      cases op <;> simp only [OnRules, not_true_eq_false] at hr <;> simp only [specStep] <;> (repeat' split) <;> simp
    cases op with
    | upsert ch kvs c =>
      obtain ⟨h1, h2, h3, h4⟩ := hv
      by_cases hc : 0 < c
      · rcases increment_any h h4 h1 h2 c with e | ⟨e, _⟩
        · obtain ⟨st', e2, hI, e3, e4⟩ := add_any h h1 h2 c
          exact fin (st' := st') (out := .ok) (by simp only [step, upsert, if_pos hc]; rw [e, e2]) hI e3 e4 hr1.1 hr1.2
        · exact fin (by simp only [step, upsert, if_pos hc]; exact e) h rfl rfl hr1.1 hr1.2
      · have hd := delete_items h h1 (fun i => decide (add64 i.value c ≤ 0))
        cases hdel : st.counters.delete kvs (some fun i => decide (add64 i.value c ≤ 0)) with
        | mk t o =>
          rw [hdel] at hd
          cases o with
          | none => exact fin (st' := { st with counters := t }) (out := .ok) (by simp only [step, upsert, if_neg hc, decrement, hdel]) hd rfl rfl hr1.1 hr1.2
          | some i =>
            refine fin (st' := { st with counters := if add64 i.value c ≤ 0 then t else modify t i.id (fun v => add64 v c) }) (out := .ok)
              (by simp only [step, upsert, if_neg hc, decrement, hdel]) ?_ rfl rfl hr1.1 hr1.2
            split
            · exact hd
            · refine h.counters (inv_modify hd.cinv _ _) ?_
              intro x hx
              obtain ⟨j, hj, _, e, _⟩ := mem_modify hx
              rw [e]; exact hd.ctyp j hj
    | setCounter kvs c =>
      by_cases hc : c ≤ 0
      · exact fin (st' := { st with counters := (st.counters.delete kvs (some fun _ => true)).1 }) (out := .ok) (by simp only [step, setCounter, if_pos hc]) (delete_items h hv.1 (fun _ => true)) rfl rfl hr1.1 hr1.2
      · obtain ⟨t, o, e, hI⟩ := put_any h hv.1 hv.2.1 c (fun _ => c)
        refine fin (out := .ok) ?_ hI rfl rfl hr1.1 hr1.2
        simp only [step, setCounter, if_neg hc, e]
        cases o <;> rfl
    | queryCounters q =>
      have hv1 : everywhere SelOk Asks q := everywhere_imp (fun s hs => ⟨hs.1, hs.2.1⟩) (fun _ h => h) q hv.1
      obtain ⟨l, e, hp⟩ := queryAction_spec h.cinv hv1 hv.2
      exact fin (st' := st) (out := .counters (l.map (fun i => (i.kvs, i.value)))) (by simp only [step, queryCounters, e]) h rfl rfl hr1.1 hr1.2
    | _ => exact absurd trivial hr

theorem any_run {ops : List (Op Key)} : ∀ {st : State Key}, RInv st → (∀ op ∈ ops, LimSpec.ValidOp op) →
    ∃ st' outs, run st ops = some (st', outs) ∧ RInv st' := by
  induction ops with
  | nil => intro st h _; exact ⟨st, [], rfl, h⟩
  | cons op ops ih =>
    intro st h hv
    obtain ⟨st1, out, e1, h1, _⟩ := any_step h (hv op (by simp))
    obtain ⟨st2, outs, e2, h2⟩ := ih h1 (fun op' ho => hv op' (by simp [ho]))
    exact ⟨st2, out :: outs, by simp [run, e1, e2], h2⟩

/-- What holds of the rules. -/
theorem RInv.rinv' {st : State Key} (h : RInv st) : SInv { abs st with counters := [] } := by
  have h0 : LInv { st with counters := ATree.new } 0 :=
    ⟨h.counters inv_new (by simp [ATree.new]), by simp [ATree.new], by simp [ATree.new]⟩
  exact h0.sinv

end Willow.Limiter
