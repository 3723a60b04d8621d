import Verif.Spec.RuleDelete
import Verif.Proofs.LimiterGroup
/-! The limiter while rules are being deleted: invariant and refinement. -/
namespace Willow.RuleDelete
open Willow Willow.Assoc Willow.Spec Willow.OTM Willow.OTMSpec Willow.Limiter Willow.LimSpec KeyOps BTree

/-! ### Other requests leave the overrides of a rule alone -/

theorem rel_onRelation {o o' : OTM.Tree Key Int} {one b : GoString} {f : ATree Key (OItem Key Int) → Option (ATree Key (OItem Key Int) × OOut Key Int)} {d out : OOut Key Int}
    (h : OTM.onRelation o one f d = some (o', out)) (hb : b ≠ one) : rel o' b = rel o b := by
  unfold onRelation at h
  split at h
  · cases h; rfl
  · split at h
    · cases h; rfl
    · split at h
      · cases h
      · cases h; rw [rel_upsert, if_neg hb]

theorem rel_createOrFind {o o' : OTM.Tree Key Int} {one b : GoString} {kvs : KVs Key} {v : Option Int} {out : OOut Key Int}
    (h : OTM.createOrFind o one kvs v = some (o', out)) (hb : b ≠ one) : rel o' b = rel o b := by
  unfold OTM.createOrFind at h
  split at h
  · cases h; rfl
  · split at h
    · cases h; rfl
    · simp only at h
      split at h
      · cases h
      · cases h; rw [rel_upsert, if_neg hb]

theorem idStr_ne_of {a b : Nat} (h : a ≠ b) : idStr a ≠ idStr b := fun e => h (idStr_inj e)

theorem overrides_add {st st' : State Key} {kvs : KVs Key} {c : Int} {out : Out Key} (h : addCounter st kvs c = some (st', out)) :
    st'.overrides = st.overrides ∧ st'.rules = st.rules := by
  unfold addCounter at h
  split at h <;> cases h <;> exact ⟨rfl, rfl⟩

theorem overrides_increment {st st' : State Key} {ch : Choice Key} {kvs : KVs Key} {c : Int} {out : Out Key} (h : increment st ch kvs c = some (st', out)) :
    st'.overrides = st.overrides ∧ st'.rules = st.rules := by
  unfold increment at h
  split at h
  · cases h
  · cases h; exact ⟨rfl, rfl⟩
  · split at h
    · cases h; exact ⟨rfl, rfl⟩
    · split at h
      · split at h
        · cases h
        · cases h; exact ⟨rfl, rfl⟩
        · exact overrides_add h
      · exact overrides_add h

/-- A request that neither deletes rules nor names this one keeps the tree of its overrides. -/
theorem rel_step {st st' : State Key} {op : Op Key} {out : Out Key} (h : Limiter.step st op = some (st', out)) (hop : ∀ ch id, op ≠ .deleteRule ch id) {id : Nat}
    (hn : named op ≠ some id) : rel st'.overrides (idStr id) = rel st.overrides (idStr id) := by
  cases op with
  | createRule kvs l =>
    simp only [Limiter.step, createRule] at h
    split at h <;> cases h <;> rfl
  | getRule i =>
    simp only [Limiter.step, getRule] at h
    split at h <;> cases h <;> rfl
  | updateRule i l =>
    simp only [Limiter.step, updateRule] at h
    split at h <;> cases h <;> rfl
  | deleteRule ch i => exact absurd rfl (hop ch i)
  | createOverride i kvs l =>
    have hne : idStr id ≠ idStr i := idStr_ne_of (fun e => hn (by rw [e]; rfl))
    simp only [Limiter.step, createOverride] at h
    split at h
    · cases h
    · cases h; rfl
    · split at h
      · cases h; rfl
      · split at h
        · cases h
        all_goals (rename_i e; cases h; exact rel_createOrFind e hne)
  | getOverride i o =>
    simp only [Limiter.step, getOverride] at h
    split at h
    · cases h
    · cases h; rfl
    · split at h <;> cases h <;> rfl
  | updateOverride i o l =>
    have hne : idStr id ≠ idStr i := idStr_ne_of (fun e => hn (by rw [e]; rfl))
    simp only [Limiter.step, updateOverride] at h
    split at h
    · cases h
    · cases h; rfl
    · split at h
      · cases h
      all_goals (rename_i e; cases h; exact rel_onRelation e hne)
  | deleteOverride i o =>
    have hne : idStr id ≠ idStr i := idStr_ne_of (fun e => hn (by rw [e]; rfl))
    simp only [Limiter.step, deleteOverride] at h
    split at h
    · cases h
    · cases h; rfl
    · split at h
      · cases h
      all_goals (rename_i e; cases h; exact rel_onRelation e hne)
  | upsert ch kvs c =>
    simp only [Limiter.step, upsert] at h
    split at h
    · rw [(overrides_increment h).1]
    · unfold decrement at h
      split at h <;> cases h <;> rfl
  | setCounter kvs c =>
    simp only [Limiter.step, setCounter] at h
    split at h
    · cases h; rfl
    · split at h <;> cases h <;> rfl
  | queryCounters q =>
    simp only [Limiter.step, queryCounters] at h
    split at h <;> cases h <;> rfl

/-! ### The steps of a deletion -/

theorem wipe_spec {st : State Key} {B : Int} (h : LInv st B) {i : Item Key Int} (him : i ∈ st.rules.items)
    {ord : List (Item Key (OItem Key Int)) → List (Item Key (OItem Key Int))} (ho : ∀ l, (ord l).Perm l) :
    ∃ o' out, OTM.destroyOne st.overrides (idStr i.id) (some fun _ => true) ord = some (o', out) ∧ (∀ e, out ≠ .error e) ∧ rel o' (idStr i.id) = none ∧
      (∀ b, b ≠ idStr i.id → (rel o' b).map plain = (rel st.overrides b).map plain) ∧
      LInv { st with overrides := o' } B ∧ abs { st with overrides := o' } = (abs st).setRule i.id (fun r => { r with overrides := [], nextId := 0 }) := by
  obtain ⟨o', out, e, hs, hsame⟩ := step_sim h.osim (op := .destroyOne (idStr i.id) (some fun _ => true) ord) ho
  have htag := Sim.tagged h.otag (op := .destroyOne (idStr i.id) (some fun _ => true) ord) (idStr_ne i.id) hs
  have hoth := famStep_rel hs
  have hgone : rel o' (idStr i.id) = none := by
    have := hs.eq (idStr i.id)
    simp only [famStep, OOp.one, if_true, relStep, if_neg (idStr_ne i.id)] at this
    cases hr : rel st.overrides (idStr i.id) with
    | none => rw [hr] at this; simpa using this
    | some t => rw [hr] at this; simpa using this
  have hout : ∀ e, out ≠ .error e := by
    rintro e rfl
    simp only [famStep, OOp.one, relStep, if_neg (idStr_ne i.id)] at hsame
    cases hr : rel st.overrides (idStr i.id) with
    | none => rw [hr] at hsame; simp [OTMSpec.Same] at hsame
    | some t => rw [hr] at hsame; simp [OTMSpec.Same] at hsame
  have hne : ∀ b t, rel o' b = some t → b ≠ idStr i.id := by rintro b t hr rfl; rw [hgone] at hr; cases hr
  have hbi : ∀ b t, rel o' b = some t → ∃ t0, rel st.overrides b = some t0 ∧ t.items = t0.items := by
    intro b t hr
    have := hoth b (hne b t hr)
    rw [hr] at this
    cases hr0 : rel st.overrides b with
    | none => rw [hr0] at this; cases this
    | some t0 =>
      rw [hr0] at this
      exact ⟨t0, rfl, congrArg Store.items (by simpa using this)⟩
  refine ⟨o', out, e, hout, hgone, hoth, ?_, ?_⟩
  · refine { h with ouniq := hs.uniq, oinv := hs.inv, otag := htag, own := ?_, olim := ?_, sup := ?_ }
    · intro b t hr
      obtain ⟨t0, h0, _⟩ := hbi b t hr
      exact h.own b t0 h0
    · intro b t hr
      obtain ⟨t0, h0, hp⟩ := hbi b t hr
      rw [hp]; exact h.olim b t0 h0
    · intro j hj t hr
      obtain ⟨t0, h0, hp⟩ := hbi _ t hr
      rw [hp]
      exact h.sup j hj t0 h0
  · unfold St.setRule abs
    simp only [St.mk.injEq, and_true]
    apply setRule_abs (fun _ _ => rfl)
    intro j hj
    split
    · rename_i e
      rw [h.rinv.item_eq hj him e]
      simp [absRule, ovs, nxt, hgone]
    · rename_i e
      have := ovs_plain (hoth (idStr j.id) (idStr_ne_of e))
      simp [absRule, this.1, this.2]

theorem finish_spec {st : State Key} {B : Int} (h : LInv st B) {i : Item Key Int} (him : i ∈ st.rules.items) (hgone : rel st.overrides (idStr i.id) = none) :
    ∃ t' r, st.rules.destroyById i.id (some fun _ => true) = some (t', r) ∧ LInv { st with rules := t' } B ∧
      abs { st with rules := t' } = { abs st with rules := (abs st).rules.filter (fun r => r.id != i.id) } := by
  obtain ⟨t', asked, e2, hI, hst⟩ := h.rinv.destroyById i.id (some fun _ => true)
  have hitems : t'.items = st.rules.items.filter (fun j => j.id != i.id) ∧ t'.next = st.rules.next := by
    have hf : st.rules.items.find? (fun j => j.id == i.id) = some i := h.rinv.find_id him
    simp only [storeStep, Store.remove, hf, if_true, Prod.mk.injEq, Store.mk.injEq] at hst
    exact ⟨hst.1.1.symm, hst.1.2.symm⟩
  have hne : ∀ b t, rel st.overrides b = some t → b ≠ idStr i.id := by rintro b t hr rfl; rw [hgone] at hr; cases hr
  refine ⟨t', asked, e2, ?_, ?_⟩
  · refine { h with rinv := hI, own := ?_, rlim := ?_, sup := ?_ }
    · intro b t hr
      obtain ⟨j, hj, e⟩ := h.own b t hr
      refine ⟨j, ?_, e⟩
      rw [hitems.1, List.mem_filter]
      refine ⟨hj, ?_⟩
      simp only [bne_iff_ne, ne_eq]
      intro ej; exact hne b t hr (by rw [e, ej])
    · intro j hj
      rw [hitems.1] at hj
      exact h.rlim j (List.mem_filter.1 hj).1
    · intro j hj t hr
      rw [hitems.1] at hj
      exact h.sup j (List.mem_filter.1 hj).1 t hr
  · simp only [abs, hitems.1, hitems.2, St.mk.injEq, and_true]
    rw [List.filter_map]
    rfl

/-! ### Increments -/

theorem decide_eq {st : State Key} {B : Int} (h : LInv st B) (hB : B < 2 ^ 63) {ch : Choice Key} (hc : ValidChoice ch) {kvs : KVs Key}
    (hv : ValidKVs kvs) (ht : Typed kvs) (c : Int) {rs : List Found} {eff : List (List GoString × Int)} (hcov : Covers (rs.flatMap Found.limits) eff)
    (hin : ∀ x ∈ eff, x ∈ effective (abs st).rules kvs) :
    decideOn st ch kvs c (some (some rs)) = if eff.all (okLimit st kvs) then addCounter st kvs c else some (st, .conflict) := by
  obtain ⟨hsub, hall⟩ := hcov
  have hzero : ∀ x ∈ rs.flatMap Found.limits, x.2 = 0 → eff.all (okLimit st kvs) = false := by
    intro x hx hz
    rw [List.all_eq_false]
    refine ⟨x, hsub x hx, ?_⟩
    have := groupTotal_nonneg h x.1 kvs
    simp only [okLimit, hz]
    simp; omega
  simp only [decideOn]
  by_cases hl : lastIsZero rs = true
  · rw [if_pos hl]
    have : ∃ x ∈ rs.flatMap Found.limits, x.2 = 0 := by
      unfold lastIsZero at hl
      split at hl
      · cases hl
      · rename_i r hr
        split at hl
        · rename_i l hl'
          exact ⟨l, List.mem_flatMap.2 ⟨r, List.mem_of_getLast? hr, List.mem_of_getLast? hl'⟩, by simpa using hl⟩
        · cases hl
    obtain ⟨x, hx, hz⟩ := this
    rw [hzero x hx hz]; rfl
  rw [if_neg hl]
  by_cases hlim : limited rs = true
  · rw [if_pos hlim, checkAll_spec h hB hc hv ht _ (fun x hx => hin x (hsub x hx))]
    cases hA : (rs.flatMap Found.limits).all (okLimit st kvs)
    · simp only
      have : eff.all (okLimit st kvs) = false := by
        obtain ⟨x, hx, hf⟩ := List.all_eq_false.1 hA
        rw [List.all_eq_false]
        exact ⟨x, hsub x hx, hf⟩
      rw [this]; rfl
    · simp only
      rcases hall with ⟨x, hx, hz⟩ | hall
      · exfalso
        have := List.all_eq_true.1 hA x hx
        have h0 := groupTotal_nonneg h x.1 kvs
        simp only [okLimit, hz] at this
        simp at this; omega
      · have : eff.all (okLimit st kvs) = true := by
          rw [List.all_eq_true]
          exact fun x hx => List.all_eq_true.1 hA x (hall x hx)
        rw [this]; rfl
  · rw [if_neg hlim]
    have hall1 : ∀ x ∈ rs.flatMap Found.limits, x.2 = -1 := by
      intro x hx
      obtain ⟨r, hr, hx⟩ := List.mem_flatMap.1 hx
      simp only [limited, List.any_eq_true, not_exists, not_and, bne_iff_ne, ne_eq, Decidable.not_not] at hlim
      exact hlim r hr x hx
    rcases hall with ⟨x, hx, hz⟩ | hall
    · have := hall1 x hx; omega
    · have : eff.all (okLimit st kvs) = true := by
        rw [List.all_eq_true]
        intro x hx
        simp [okLimit, hall1 x (hall x hx)]
      rw [this]; rfl

theorem map_takeWhile {α β : Type} (f : α → β) (p : β → Bool) : ∀ l : List α, (l.map f).takeWhile p = (l.takeWhile (fun a => p (f a))).map f
  | [] => rfl
  | a :: l => by
    simp only [List.map_cons, List.takeWhile_cons]
    split
    · rw [map_takeWhile f p l]; rfl
    · rfl

/-- The rules an increment takes into account: the applicable ones in some order, up to the first that is being deleted. -/
theorem increment_spec {s : Sys Key} {B : Int} (h : LInv s.st B) (hB : B < 2 ^ 63) {ch : Choice Key} (hc : ValidChoice ch) {kvs : KVs Key}
    (hv : ValidKVs kvs) (ht : Typed kvs) (c : Int) :
    ∃ l : List LimSpec.Rule, l.Perm ((abs s.st).rules.filter (fun r => applies r.kvs kvs)) ∧
      decideOn s.st ch kvs c (findLimits s ch kvs) =
        if allowed (withRules (abs s.st) (l.takeWhile (fun r => !s.isClosing r.id))) kvs then addCounter s.st kvs c else some (s.st, .conflict) := by
  rcases matchAction_spec h.rinv (validMatch_any hv) hc.1 with ⟨l, e, _, hp⟩ | ⟨_, _, hx⟩
  rotate_left
  · exact absurd rfl hx
  have hf : s.st.rules.items.filter (fun i => covered (anyMatchQuery kvs) i.kvs) = s.st.rules.items.filter (fun i => applies i.kvs kvs) :=
    List.filter_congr (fun i _ => covered_any hv ht)
  rw [hf] at hp
  have hp2 := (hc.2.1 l).trans hp
  have hmem : ∀ i ∈ (ch.rules l).takeWhile (fun i => !s.isClosing i.id), i ∈ s.st.rules.items ∧ applies i.kvs kvs = true := by
    intro i hi
    exact List.mem_filter.1 (hp2.mem_iff.1 ((List.takeWhile_sublist _).mem hi))
  obtain ⟨rs, e2, hcr⟩ := findLimitsLoop_spec h.toRInv hc hv ht _ (fun i hi => (hmem i hi).2)
  refine ⟨(ch.rules l).map (absRule s.st.overrides), ?_, ?_⟩
  · refine (hp2.map _).trans (List.Perm.of_eq ?_)
    simp only [abs]
    rw [List.filter_map]; rfl
  · have : findLimits s ch kvs = some (some rs) := by unfold findLimits; rw [e]; exact e2
    rw [this, decide_eq h hB hc hv ht c hcr, map_takeWhile]
    · rfl
    · intro x hx
      obtain ⟨r, hr, hx⟩ := List.mem_flatMap.1 hx
      obtain ⟨i, hi, rfl⟩ := List.mem_map.1 hr
      exact List.mem_flatMap.2 ⟨_, List.mem_map.2 ⟨i, (hmem i hi).1, rfl⟩, hx⟩

theorem add_put {st : State Key} {B : Int} (h : LInv st B) {k : KVs Key} (hv : ValidKVs k) (ht : Typed k) {c : Int} (hpos : 0 < c) (hB : B + c < 2 ^ 63) :
    ∃ st', addCounter st k c = some (st', .ok) ∧ LInv st' (B + c) ∧ abs st' = { abs st with counters := putCounter (abs st).counters k c (· + c) } := by
  obtain ⟨t, o, e, t', ht', hI, hab⟩ := put_spec h hv ht hpos (fun v => add64 v c) (· + c) (by
    intro i hi
    have h1 := h.cpos i hi
    have h2 := le_sum h.cpos hi
    have := h.csum
    exact ⟨add64_eq (by omega) (by omega), by omega, by omega⟩) rfl
  refine ⟨{ st with counters := t' }, ?_, hI, ?_⟩
  · unfold addCounter; rw [e]; subst ht'; cases o <;> rfl
  · rw [abs_counters, hab]; rfl

end Willow.RuleDelete
