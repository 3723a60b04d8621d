import Verif.Proofs.LimiterGroup
/-! Concurrent increments: every accepted one is added, exactly once. -/
namespace Willow.LimConc
open Willow Willow.Assoc Willow.Spec Willow.OTM Willow.OTMSpec Willow.Limiter Willow.LimSpec KeyOps BTree

theorem accepted_middle (kvs : KVs Key) (a b : List (Thread Key)) (t : Thread Key) :
    accepted kvs (a ++ t :: b) = accepted kvs [t] + accepted kvs (a ++ b) := by
  simp only [accepted, List.filter_append, List.filter_cons, List.filter_nil]
  split <;> simp [List.sum_append] <;> omega

theorem accepted_one (kvs : KVs Key) (t : Thread Key) : accepted kvs [t] = if t.okB && sameKVs t.req.kvs kvs then t.req.c else 0 := by
  simp only [accepted, List.filter_cons, List.filter_nil]
  split <;> simp

theorem add_value {st : State Key} {B : Int} (h : LInv st B) {k : KVs Key} (hv : ValidKVs k) (ht : Typed k) {c : Int} (hpos : 0 < c) (hB : B + c < 2 ^ 63) :
    ∃ st', addCounter st k c = some (st', .ok) ∧ LInv st' (B + c) ∧
      ∀ x, ValidKVs x → valueAt (abs st').counters x = valueAt (abs st).counters x + if sameKVs k x then c else 0 := by
  obtain ⟨t, o, e, t', ht', hI, hab⟩ := put_spec h hv ht hpos (fun v => add64 v c) (· + c) (by
    intro i hi
    have h1 := h.cpos i hi
    have h2 := le_sum h.cpos hi
    have := h.csum
    exact ⟨add64_eq (by omega) (by omega), by omega, by omega⟩) rfl
  have hadd : addCounter st k c = some ({ st with counters := t' }, .ok) := by
    unfold addCounter; rw [e]; subst ht'; cases o <;> rfl
  refine ⟨_, hadd, hI, fun x hx => ?_⟩
  rw [abs_counters]
  simp only
  rw [hab, show st.counters.items.map absCounter = (abs st).counters from rfl, valueAt_put h.sinv.cval h.sinv.cpos hv hx]
  have hsame : sameKVs k x = true → valueAt (abs st).counters k = valueAt (abs st).counters x := by
    intro hs
    unfold valueAt
    have : (fun c : Counter => sameKVs k c.kvs) = fun c => sameKVs x c.kvs := by
      funext c; exact sameKVs_congr hv hx hs
    rw [this]
  split
  · rename_i hs
    rw [hsame hs]
    split <;> omega
  · simp only [Int.add_zero]

theorem other_value {st st' : State Key} {out : Out Key} {B : Int} (h : LInv st B) {op : Op Key} (hv : LimSpec.ValidOp op) (hB : B + amount op < 2 ^ 63)
    (e : Limiter.step st op = some (st', out)) {kvs : KVs Key} (hk : ValidKVs kvs) (hoff : OffCounter kvs op) :
    LInv st' (B + amount op) ∧ valueAt (abs st').counters kvs = valueAt (abs st).counters kvs := by
  obtain ⟨st1, out1, e1, h1, hab, _⟩ := sim_step h hv hB
  rw [e] at e1; cases e1
  refine ⟨h1, ?_⟩
  rw [hab]
  have hs := h.sinv
  cases op with
  | upsert ch k c =>
    simp only [specStep]
    have hkk : ValidKVs k := hv.1
    simp only [OffCounter] at hoff
    split
    · split
      · simp only [valueAt_put hs.cval hs.cpos hkk hk, hoff]; rfl
      · rfl
    · split
      · simp only [valueAt_remove hs.cval hkk hk, hoff]; rfl
      · simp only [valueAt_change hs.cval hkk hk, hoff]; rfl
  | setCounter k c =>
    simp only [specStep]
    have hkk : ValidKVs k := hv.1
    simp only [OffCounter] at hoff
    split
    · simp only [valueAt_remove hs.cval hkk hk, hoff]; rfl
    · simp only [valueAt_put hs.cval hs.cpos hkk hk, hoff]; rfl
  | createRule k l => simp only [specStep]; split <;> rfl
  | getRule i => simp only [specStep]; split <;> rfl
  | updateRule i l => simp only [specStep]; split <;> rfl
  | deleteRule c i => simp only [specStep]; split <;> rfl
  | createOverride i k l =>
    simp only [specStep]
    split
    · rfl
    · split
      · rfl
      · split
        · rfl
        · split <;> rfl
  | getOverride i j =>
    simp only [specStep]
    split
    · rfl
    · split <;> rfl
  | updateOverride i j l =>
    simp only [specStep]
    split
    · rfl
    · split <;> rfl
  | deleteOverride i j => simp only [specStep]; split <;> rfl
  | queryCounters q => rfl

/-- a step that does not add leaves the state and the answer alone, and it does not answer with success -/
theorem advance_not_adding {st st' : State Key} {t : Thread Key} {p : Phase Key} (hn : ∀ b, t.phase ≠ .adding b)
    (e : advance st t = some (st', p)) : st' = st ∧ ({ t with phase := p } : Thread Key).okB = t.okB ∧ pend { t with phase := p } ≤ max (pend t) 0 := by
  obtain ⟨r, p0⟩ := t
  cases p0 with
  | adding b => exact absurd rfl (hn b)
  | start =>
    simp only [advance] at e
    cases h : afterFind r.kvs (findLimits st r.ch r.kvs) with
    | none => rw [h] at e; simp at e
    | some q =>
      rw [h] at e; simp at e
      obtain ⟨rfl, rfl⟩ := e
      unfold afterFind at h
      split at h
      · simp at h
      · simp at h; subst h; exact ⟨rfl, rfl, by simp only [pend]; omega⟩
      · split at h
        · simp at h; subst h; exact ⟨rfl, rfl, by simp only [pend]; omega⟩
        · split at h <;> (simp at h; subst h; exact ⟨rfl, rfl, by simp only [pend]; omega⟩)
  | checking ls =>
    simp only [advance] at e
    cases h : checkNext st r ls with
    | none => rw [h] at e; simp at e
    | some q =>
      rw [h] at e; simp at e
      obtain ⟨rfl, rfl⟩ := e
      unfold checkNext at h
      split at h
      · simp at h; subst h; exact ⟨rfl, rfl, by simp only [pend]; omega⟩
      · split at h
        · simp at h; subst h; exact ⟨rfl, rfl, by simp only [pend]; omega⟩
        · split at h <;> simp at h; subst h; exact ⟨rfl, rfl, by simp only [pend]; omega⟩
  | locking ls todo => cases todo <;> (simp [advance] at e; obtain ⟨rfl, rfl⟩ := e; exact ⟨rfl, rfl, by simp only [pend]; omega⟩)
  | summing limit rest ids acc =>
    simp [advance] at e; obtain ⟨rfl, rfl⟩ := e
    unfold sumNext
    split
    · split <;> exact ⟨rfl, rfl, by simp only [pend]; omega⟩
    · split
      · exact ⟨rfl, rfl, by simp only [pend]; omega⟩
      · split <;> exact ⟨rfl, rfl, by simp only [pend]; omega⟩
  | releasing todo out => cases todo <;> (simp [advance] at e; obtain ⟨rfl, rfl⟩ := e; exact ⟨rfl, by cases out <;> rfl, by simp only [pend]; omega⟩)
  | done _ => simp [advance] at e

/-- The invariant; `R` is what the remaining steps may bring. -/
structure CI (kvs : KVs Key) (V T : Int) (s : Sys Key) (R : Int) : Prop where
  base : SysInv s
  lim : ∃ B, LInv s.st B ∧ B + pends s.threads + R ≤ T
  val : valueAt (abs s.st).counters kvs = V + accepted kvs s.threads

theorem CI.step {kvs : KVs Key} {V T : Int} {s s' : Sys Key} {l : Label Key} {R : Int} (hT : T < 2 ^ 63) (hk : ValidKVs kvs)
    (h : CI kvs V T s (labelAmount l + R)) (hR : 0 ≤ R) (hv : ValidLabel l) (hq : ∀ op, l = .other op → OffCounter kvs op) (hs : Step s l s') :
    CI kvs V T s' R := by
  obtain ⟨B, hI, hBT⟩ := h.lim
  have hpn := pends_nonneg h.base.threads
  have hb := h.base.step hv hs
  have hval := h.val
  cases hs with
  | arrive r =>
    rename_i r
    refine ⟨hb, ⟨B, hI, ?_⟩, ?_⟩
    · simp only [labelAmount] at hBT
      simp only [pends, List.map_cons, List.sum_cons, pend] at hBT ⊢
      omega
    · rw [hval]
      have := accepted_middle kvs [] s.threads ⟨r, .start⟩
      simp only [List.nil_append] at this
      rw [this, accepted_one]
      simp [Thread.okB]
  | other s0 op st' out e =>
    simp only [labelAmount] at hBT
    obtain ⟨h1, h2⟩ := other_value hI hv.1 (by omega) e hk (hq op rfl)
    exact ⟨hb, ⟨B + amount op, h1, by simp only; omega⟩, by simp only; rw [h2, hval]⟩
  | move st a b t st' p hfree e =>
    have htm : t ∈ a ++ t :: b := mem_middle.2 (.inl rfl)
    have hti := h.base.threads t htm
    simp only [labelAmount, Int.zero_add] at hBT
    rw [pends_middle] at hBT
    have hpab : 0 ≤ pends (a ++ b) := pends_nonneg (fun u hu => h.base.threads u (mem_middle.2 (.inr hu)))
    have hpt := pend_nonneg hti
    simp only at hval
    rw [accepted_middle, accepted_one] at hval
    by_cases hadd : ∃ b', t.phase = .adding b'
    · obtain ⟨b', hb'⟩ := hadd
      have hpc : pend t = t.req.c := by unfold pend; rw [hb']
      obtain ⟨st1, e1, h1, hx⟩ := add_value hI hti.kvs hti.typed hti.pos (by omega)
      have e' : LimConc.advance st t = some (st', p) := e
      unfold LimConc.advance at e'
      rw [hb'] at e'
      simp only at e' e1
      rw [e1] at e'
      simp only [Option.map_some, Option.some.injEq, Prod.mk.injEq] at e'
      obtain ⟨rfl, rfl⟩ := e'
      have hpp : pend { t with phase := if b' = true then Phase.releasing (sortedKeys t.req.kvs) Out.ok else Phase.done Out.ok } = 0 := by
        cases b' <;> rfl
      have hok : ({ t with phase := if b' = true then Phase.releasing (sortedKeys t.req.kvs) Out.ok else Phase.done Out.ok } : Thread Key).okB = true := by
        cases b' <;> rfl
      have hno : t.okB = false := by unfold Thread.okB; rw [hb']
      refine ⟨hb, ⟨B + t.req.c, h1, ?_⟩, ?_⟩
      · simp only; rw [pends_middle, hpp]; omega
      · simp only
        rw [hx kvs hk, accepted_middle, accepted_one, hok]
        rw [hno] at hval
        simp only [Bool.false_and, Bool.true_and, Bool.false_eq_true, if_false] at hval ⊢
        show valueAt (abs st).counters kvs + _ = _
        rw [hval]; omega
    · obtain ⟨rfl, h1, h2⟩ := advance_not_adding (fun b' hb' => hadd ⟨b', hb'⟩) e
      refine ⟨hb, ⟨B, hI, ?_⟩, ?_⟩
      · simp only; rw [pends_middle]; omega
      · simp only
        rw [accepted_middle, accepted_one, h1]; exact hval
  | fail st a b r ls todo =>
    have htm : (⟨r, .locking ls todo⟩ : Thread Key) ∈ a ++ ⟨r, .locking ls todo⟩ :: b := mem_middle.2 (.inl rfl)
    simp only [labelAmount, Int.zero_add] at hBT
    rw [pends_middle] at hBT
    have hpt := pend_nonneg (h.base.threads _ htm)
    refine ⟨hb, ⟨B, hI, ?_⟩, ?_⟩
    · simp only; rw [pends_middle]; simp only [pend] at hpt hBT ⊢; omega
    · simp only at hval ⊢
      rw [accepted_middle, accepted_one] at hval ⊢
      exact hval

theorem CI.run {kvs : KVs Key} {V T : Int} {s s' : Sys Key} {ls : List (Label Key)} (hT : T < 2 ^ 63) (hk : ValidKVs kvs)
    (hr : Run s ls s') (h : CI kvs V T s (labelsAmount ls)) (hv : ∀ l ∈ ls, ValidLabel l) (hq : ∀ op, .other op ∈ ls → OffCounter kvs op) :
    CI kvs V T s' 0 := by
  induction hr with
  | nil => simpa [labelsAmount] using h
  | @cons s s1 s2 l ls hs _ ih =>
    have hv' : ∀ l ∈ ls, ValidLabel l := fun x hx => hv x (by simp [hx])
    refine ih (CI.step hT hk (l := l) ?_ (labelsAmount_nonneg hv') (hv l (by simp)) (fun op e => hq op (by simp [e])) hs) hv' (fun x hx => hq x (by simp [hx]))
    simpa [labelsAmount] using h

end Willow.LimConc
