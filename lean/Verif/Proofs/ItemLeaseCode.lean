import Verif.Proofs.ItemLease
/-
Invariants of items whose heartbeats have no Content-Type header (`hdr = false`, as in the code).
-/
namespace Willow.ItemLease

/-- No heartbeat was answered with 200, and no old tick waits. -/
theorem never_ok {T : Nat} {P : St → Prop} {s : St} (h : ReachWith false T P s) : (∀ x t, (s.cli x).call ≠ .answered .ok t) ∧ s.stale = false := by
  induction h with
  | init => exact ⟨by simp [init, noCli], rfl⟩
  | @step s s' h hs hp ih =>
    obtain ⟨h1, h2⟩ := ih
    have hset : ∀ x (c : Cli), (∀ t, c.call ≠ .answered .ok t) → ∀ y t, ((s.set x c).cli y).call ≠ .answered .ok t := by
      intro x c hc y
      simp only [St.set]
      split
      · exact hc
      · exact h1 y
    cases hs with
    | wait d => exact ⟨h1, h2⟩
    | deliver h' =>
      refine ⟨fun y t => ?_, rfl⟩
      simp only [St.deliver]
      split
      · simp
      · exact h1 y t
    | start x h' hs => exact ⟨h1, h2⟩
    | unstart x h' hs hp => exact ⟨hset x _ (h1 x), h2⟩
    | expire x h' hs ht => exact ⟨h1, h2⟩
    | delivered x h' => exact ⟨hset x _ (by unfold Cli.start; split <;> exact h1 x), h2⟩
    | undelivered x h' => exact ⟨hset x _ (h1 x), h2⟩
    | tick x h' hi hb => exact ⟨hset x _ (by unfold Cli.tick; split; · exact h1 x
                                             · simp), h2⟩
    | handle x t hc hs hh => cases hh
    | handleLost x hl hs hh => cases hh
    | reject x t hc hh => exact ⟨hset x _ (by simp), h2⟩
    | fail x h' hc => exact ⟨hset x _ (by simp [Cli.fail]), h2⟩
    | failDone x h' hc => exact ⟨hset x _ (h1 x), h2⟩
    | receive x t c h' hc => exact ⟨hset x _ (by cases c <;> simp [Cli.receive]), h2⟩
    | receiveDone x t c h' hc => exact ⟨hset x _ (by simp), h2⟩
    | ack x h' => exact ⟨hset x _ (h1 x), h2⟩
    | acked x y h' hd hx => exact ⟨h1, h2⟩

/-- Runs from a state. -/
inductive Later (hdr : Bool) (T : Nat) : St → St → Prop
  | refl (s : St) : Later hdr T s s
  | step {s s' s'' : St} : Later hdr T s s' → Step hdr T s' s'' → Later hdr T s s''

/-- A computed run is a run. -/
theorem exec_later {T : Nat} {P : St → Prop} [DecidablePred P] {s s' : St} {as : List Act} (h : exec T P s as = some s') : Later false T s s' := by
  suffices ∀ s₀, Later false T s₀ s → Later false T s₀ s' from this s (.refl s)
  intro s₀ h0
  induction as generalizing s with
  | nil => cases h; exact h0
  | cons a as ih =>
    simp only [exec] at h
    cases h1 : exec1 T s a with
    | none => rw [h1] at h; cases h
    | some s1 =>
      rw [h1] at h
      simp only at h
      by_cases hp : P s1
      · rw [if_pos hp] at h
        exact ih h (.step h0 (exec1_sound h1))
      · rw [if_neg hp] at h; cases h

/-- The delivery that is being processed is the last one. -/
theorem owner_next {hdr : Bool} {T : Nat} {P : St → Prop} {s : St} (h : ReachWith hdr T P s) {x : Nat} (ho : s.owner = some x) : s.next = x + 1 := by
  induction h generalizing x with
  | init => cases ho
  | step _ hs _ ih =>
    cases hs <;> first
      | exact ih ho
      | (simp [St.deliver] at ho ⊢; omega)
      | (simp [St.set] at ho; done)
      | (simp at ho; done)
      | (simp only [St.set, St.beat] at ho ⊢; split at ho <;> simp_all)

/-- While a delivery goes on, its deadline does not change; and a delivery does not come back. -/
theorem deadline_fixed {T : Nat} {s s' : St} {x : Nat} (h : Later false T s s') (hn : s.next = x + 1) (ho : s.owner = some x) (hs : s.started = true) :
    s.next ≤ s'.next ∧ (s'.owner = some x → s'.started = true ∧ s'.deadline = s.deadline ∧ s'.next = x + 1) := by
  induction h with
  | refl => exact ⟨Nat.le_refl _, fun _ => ⟨hs, rfl, hn⟩⟩
  | @step s' s'' h hst ih =>
    obtain ⟨i1, i2⟩ := ih
    cases hst with
    | deliver h' =>
      refine ⟨Nat.le_succ_of_le i1, fun e => ?_⟩
      simp only [St.deliver, Option.some.injEq] at e
      omega
    | start y h' hs' => exact ⟨i1, fun e => by have := i2 e; rw [hs'] at this; simp at this⟩
    | unstart y h' hs' hp => exact ⟨i1, fun e => by cases e⟩
    | expire y h' hs' ht => exact ⟨i1, fun e => by cases e⟩
    | acked y z h' hd hx => exact ⟨i1, fun e => by cases e⟩
    | handle x t hc hs hh => cases hh
    | handleLost x hl hs hh => cases hh
    | _ => exact ⟨i1, i2⟩

/-- What the timers of a consumer are like if no heartbeat succeeds; `B` bounds the next tick after the last one that sent a heartbeat. -/
structure CodeCli (T D R B now : Nat) (c : Cli) : Prop where
  pending : c.phase = .pending → c.call = .idle
  last : c.phase = .holding → c.delivered ≤ c.last ∧ c.last ≤ c.delivered + D ∧ c.last ≤ now
  grid : c.phase = .holding → ∃ m, c.beat = c.last + m * period T
  beat : c.phase = .holding → c.beat ≤ c.last + B
  since : c.phase = .holding → c.since ≤ c.last + adjusted T + R
  sent : ∀ t, c.phase = .holding → c.call = .sent t → t < c.last + adjusted T
  ans : ∀ t k, c.phase = .holding → c.call = .answered k t → t < c.last + adjusted T

theorem CodeCli.time {T D R B now now' : Nat} {c : Cli} (h : CodeCli T D R B now c) (hn : now ≤ now') : CodeCli T D R B now' c := by
  obtain ⟨h1, h2, h3, h4, h5, h6, h7⟩ := h
  exact ⟨h1, fun p => ⟨(h2 p).1, (h2 p).2.1, Nat.le_trans (h2 p).2.2 hn⟩, h3, h4, h5, h6, h7⟩

theorem codeCli_inactive {T D R B now : Nat} {c : Cli} (h1 : c.phase ≠ .pending) (h2 : c.phase ≠ .holding) : CodeCli T D R B now c :=
  ⟨fun h => absurd h h1, fun h => absurd h h2, fun h => absurd h h2, fun h => absurd h h2, fun h => absurd h h2, fun _ h => absurd h h2, fun _ _ h => absurd h h2⟩

/-- The first multiple of the period after a tick that sends a heartbeat. -/
def nextBound (T : Nat) : Nat := if adjusted T = 3 * period T then adjusted T else adjusted T + period T

theorem next_tick {T last beat now m : Nat} (hp : period T ≠ 0) (hg : beat = last + m * period T) (hb : beat ≤ now) (hn : now < last + adjusted T) :
    (∃ m', beat + period T * ((now - beat) / period T + 1) = last + m' * period T) ∧ beat + period T * ((now - beat) / period T + 1) ≤ last + nextBound T := by
  have h3 : adjusted T < 3 * period T + 3 ∧ 3 * period T ≤ adjusted T := by unfold period; omega
  have hdiv : period T * ((now - beat) / period T) ≤ now - beat := Nat.mul_div_le _ _
  generalize hq : (now - beat) / period T = q at *
  refine ⟨⟨m + q + 1, ?_⟩, ?_⟩
  · rw [hg, Nat.mul_add, Nat.add_mul, Nat.add_mul, Nat.mul_comm (period T) q]; omega
  · -- the tick is at a multiple of the period below `adjusted T`
    have e : period T * (q + 1) = period T * q + period T := Nat.mul_succ _ _
    have hk : m * period T + period T * q < adjusted T := by omega
    have hk' : (m + q) * period T < adjusted T := by rw [Nat.add_mul, Nat.mul_comm q]; exact hk
    have e2 : (m + q) * period T = m * period T + period T * q := by rw [Nat.add_mul, Nat.mul_comm q]
    unfold nextBound
    split
    · rename_i ha
      have : m + q < 3 := by
        apply Nat.lt_of_mul_lt_mul_right (a := period T); omega
      have : (m + q) * period T ≤ 2 * period T := Nat.mul_le_mul_right _ (by omega)
      omega
    · omega

/-- Everything that holds of the items of the code. -/
structure CodeInv (T D R : Nat) (s : St) : Prop where
  fresh : ∀ x, s.next ≤ x → (s.cli x).phase = .done ∧ (s.cli x).call = .idle
  owner : ∀ x, s.owner = some x → s.next = x + 1 ∧ (s.started = true → (s.cli x).delivered + T ≤ s.deadline)
  now : ∀ x, (s.cli x).delivered ≤ s.now
  lost : ∀ x, (s.cli x).active → s.owner ≠ some x → (s.cli x).delivered + T ≤ s.now
  later : ∀ x y, x < y → y < s.next → (s.cli x).active → (s.cli x).delivered + T ≤ (s.cli y).delivered
  cli : ∀ x, CodeCli T D R (nextBound T) s.now (s.cli x)

theorem code_init (T D R : Nat) : CodeInv T D R init := by
  constructor
  case cli => intro x; exact codeCli_inactive (by simp [init, noCli]) (by simp [init, noCli])
  all_goals simp [init, noCli, Cli.active]

theorem code_set {T D R : Nat} {s : St} (h : CodeInv T D R s) (x : Nat) (c : Cli) (hf : s.next ≤ x → c.phase = .done ∧ c.call = .idle)
    (hp : c.active → (s.cli x).active) (hg : c.delivered = (s.cli x).delivered) (hc : CodeCli T D R (nextBound T) s.now c) : CodeInv T D R (s.set x c) := by
  obtain ⟨h1, h2, h3, h4, h5, h6⟩ := h
  have hd : ∀ y, ((s.set x c).cli y).delivered = (s.cli y).delivered := by
    intro y; simp only [St.set]; split
    · rename_i e; rw [e, hg]
    · rfl
  have ha : ∀ y, ((s.set x c).cli y).active → (s.cli y).active := by
    intro y; simp only [St.set]; split
    · rename_i e; rw [e]; exact hp
    · exact id
  refine ⟨?_, ?_, ?_, ?_, ?_, ?_⟩
  · intro y hy
    simp only [St.set]
    split
    · rename_i e; exact hf (e ▸ hy)
    · exact h1 y hy
  · intro y hy; rw [hd]; exact h2 y hy
  · intro y; rw [hd]; exact h3 y
  · intro y hy ho; rw [hd]; exact h4 y (ha y hy) ho
  · intro a b hab hb hact; rw [hd, hd]; exact h5 a b hab hb (ha a hact)
  · intro y
    simp only [St.set]
    split
    · exact hc
    · exact h6 y

theorem start_codeCli {T D R now : Nat} (hT : period T ≠ 0) {c : Cli} (h1 : c.delivered ≤ now) (h2 : now ≤ c.delivered + D) (h3 : c.call = .idle) :
    CodeCli T D R (nextBound T) now (c.start T now) := by
  have hp : period T ≤ nextBound T := by unfold nextBound; split <;> (unfold period; omega)
  unfold Cli.start
  rw [if_neg hT]
  exact ⟨by simp, fun _ => ⟨h1, h2, Nat.le_refl _⟩, fun _ => ⟨1, by simp⟩, fun _ => by simp; exact hp, fun _ => by simp; omega, by simp [h3], by simp [h3]⟩

theorem code_inv {T D R E : Nat} (hT : period T ≠ 0) {s : St}
    (h : ReachWith false T (fun s => Prompt D R E s ∧ s.foreignAck = false) s) : CodeInv T D R s ∧ (Prompt D R E s ∧ s.foreignAck = false) := by
  induction h with
  | init => exact ⟨code_init T D R, fun x hx => absurd hx (by simp [init]), rfl⟩
  | @step s s' hr hs hp ih =>
    refine ⟨?_, hp⟩
    obtain ⟨h, ht, hfa⟩ := ih
    have hstale := (never_ok hr).2
    have hfresh : ∀ x, (s.cli x).phase ≠ .done → ¬ s.next ≤ x := fun x hx hn => hx (h.fresh x hn).1
    have hpend : ∀ x, (s.cli x).phase = .pending → s.now ≤ (s.cli x).delivered + D := fun x hx => by
      have := ht x (by have := hfresh x (by simp [hx]); omega); simpa [CliPrompt, hx] using this
    have hsent : ∀ x t, (s.cli x).phase = .holding → (s.cli x).call = .sent t → s.now ≤ t + R := fun x t hx hc => by
      have := ht x (by have := hfresh x (by simp [hx]); omega); simpa [CliPrompt, hx, hc] using this
    have hans : ∀ x t c, (s.cli x).phase = .holding → (s.cli x).call = .answered c t → s.now ≤ t + R := fun x t c hx hc => by
      have := ht x (by have := hfresh x (by simp [hx]); omega); simpa [CliPrompt, hx, hc] using this
    cases hs with
    | wait d =>
      obtain ⟨h1, h2, h3, h4, h5, h6⟩ := h
      exact ⟨h1, h2, fun x => Nat.le_trans (h3 x) (Nat.le_add_right _ _), fun x a b => Nat.le_trans (h4 x a b) (Nat.le_add_right _ _), h5,
        fun x => (h6 x).time (Nat.le_add_right _ _)⟩
    | deliver h' =>
      obtain ⟨h1, h2, h3, h4, h5, h6⟩ := h
      have hcli : ∀ y, (s.deliver).cli y = if y = s.next then { phase := .pending, delivered := s.now, beat := 0, last := 0, since := 0, call := .idle, lost := 0 } else s.cli y := fun _ => rfl
      refine ⟨?_, ?_, ?_, ?_, ?_, ?_⟩
      · intro x hx
        have hx : s.next + 1 ≤ x := hx
        rw [hcli, if_neg (by omega)]; exact h1 x (by omega)
      · intro x hx
        simp only [St.deliver, Option.some.injEq] at hx
        exact ⟨by rw [← hx]; rfl, fun hst => by simp [St.deliver] at hst⟩
      · intro x
        rw [hcli]; split
        · exact Nat.le_refl _
        · exact h3 x
      · intro x
        rw [hcli]; split
        · rename_i e; subst e; intro _ ho; exact absurd rfl ho
        · intro ha _; exact h4 x ha (by rw [h']; simp)
      · intro x y hxy hy
        have hy : y < s.next + 1 := hy
        have hx : x ≠ s.next := by omega
        rw [hcli, hcli, if_neg hx]
        intro ha
        split
        · exact h4 x ha (by rw [h']; simp)
        · exact h5 x y hxy (by omega) ha
      · intro x
        rw [hcli]; split
        · exact ⟨fun _ => rfl, by simp, by simp, by simp, by simp, by simp, by simp⟩
        · exact h6 x
    | start x h' hs =>
      obtain ⟨h1, h2, h3, h4, h5, h6⟩ := h
      refine ⟨h1, fun y hy => ?_, h3, h4, h5, h6⟩
      have hy : s.owner = some y := hy
      exact ⟨(h2 y hy).1, fun _ => Nat.add_le_add_right (h3 y) _⟩
    | unstart x h' hs hp' =>
      have hx := code_set h x { s.cli x with phase := .done } (fun hn => absurd hn (hfresh x (by simp [hp']))) (by simp [Cli.active]) rfl (codeCli_inactive (by simp) (by simp))
      obtain ⟨h1, h2, h3, h4, h5, h6⟩ := hx
      refine ⟨h1, fun y hy => by simp [St.set] at hy, h3, fun y ha _ => ?_, h5, h6⟩
      by_cases hyx : y = x
      · subst hyx; simp [St.set, Cli.active] at ha
      · refine h4 y ha ?_
        show s.owner ≠ some y
        rw [h']; simp; omega
    | expire x h' hs htick =>
      obtain ⟨h1, h2, h3, h4, h5, h6⟩ := h
      refine ⟨h1, fun y hy => by simp at hy, h3, fun y ha _ => ?_, h5, h6⟩
      by_cases hyx : y = x
      · subst hyx
        have := (h2 y h').2 hs
        rcases htick with htick | htick
        · rw [hstale] at htick; cases htick
        · show (s.cli y).delivered + T ≤ s.now; omega
      · exact h4 y ha (by rw [h']; simp; omega)
    | delivered x h' =>
      refine code_set h x _ (fun hn => absurd hn (hfresh x (by simp [h']))) (fun _ => .inl h') (by unfold Cli.start; split <;> rfl)
        (start_codeCli hT (h.now x) (hpend x h') ((h.cli x).pending h'))
    | undelivered x h' =>
      exact code_set h x _ (fun hn => absurd hn (hfresh x (by simp [h']))) (by simp [Cli.active]) rfl (codeCli_inactive (by simp) (by simp))
    | tick x h' hi hb =>
      have hc := h.cli x
      refine code_set h x _ (fun hn => absurd hn (hfresh x (by simp [h']))) (fun _ => .inr h') (by unfold Cli.tick; split <;> rfl) ?_
      unfold Cli.tick
      split
      · exact codeCli_inactive (by simp) (by simp)
      · rename_i hn
        have h2 := hc.last h'
        obtain ⟨m, hm⟩ := hc.grid h'
        have hnt := next_tick hT hm hb (by omega)
        refine ⟨by simp [h'], fun _ => h2, fun _ => hnt.1, fun _ => hnt.2, fun _ => hc.since h', fun t _ e => ?_, by simp⟩
        simp only [Call.sent.injEq] at e
        show t < (s.cli x).last + adjusted T
        omega
    | handle x t hc hs hh => cases hh
    | handleLost x hl hs hh => cases hh
    | reject x t hc hh =>
      have hcc := h.cli x
      refine code_set h x _ (fun hn => by have := (h.fresh x hn).2; rw [hc] at this; cases this) id rfl ?_
      exact ⟨fun hp => (by have := hcc.pending hp; rw [hc] at this; cases this), hcc.last, hcc.grid, hcc.beat, hcc.since, by simp,
        fun t' k hp e => by simp only [Call.answered.injEq] at e; rw [← e.2]; exact hcc.sent t hp hc⟩
    | fail x h' hc =>
      have hcc := h.cli x
      refine code_set h x _ (fun hn => absurd hn (hfresh x (by simp [h']))) (fun _ => .inr h') rfl ?_
      refine ⟨by simp [Cli.fail, h'], hcc.last, hcc.grid, hcc.beat, fun _ => ?_, by simp [Cli.fail], by simp [Cli.fail]⟩
      show s.now ≤ (s.cli x).last + adjusted T + R
      cases hcl : (s.cli x).call with
      | idle => exact absurd hcl hc
      | sent t => have := hsent x t h' hcl; have := hcc.sent t h' hcl; omega
      | answered k t => have := hans x t k h' hcl; have := hcc.ans t k h' hcl; omega
    | failDone x h' hc =>
      exact code_set h x _ (fun hn => absurd (h.fresh x hn).2 hc) (by simp [Cli.active]) rfl (codeCli_inactive (by simp) (by simp))
    | receive x t c h' hc =>
      have hcc := h.cli x
      cases c with
      | ok => exact absurd hc ((never_ok hr).1 x t)
      | other =>
        refine code_set h x _ (fun hn => absurd hn (hfresh x (by simp [h']))) (fun _ => .inr h') rfl ?_
        refine ⟨by simp [Cli.receive, h'], hcc.last, hcc.grid, hcc.beat, fun _ => ?_, by simp [Cli.receive], by simp [Cli.receive]⟩
        show s.now ≤ (s.cli x).last + adjusted T + R
        have := hans x t _ h' hc
        have := hcc.ans t _ h' hc
        omega
    | receiveDone x t c h' hc =>
      exact code_set h x _ (fun hn => by simp [h']) (by simp [Cli.active, h']) rfl (codeCli_inactive (by simp [h']) (by simp [h']))
    | ack x h' =>
      exact code_set h x _ (fun hn => absurd hn (hfresh x (by simp [h']))) (by simp [Cli.active]) rfl (codeCli_inactive (by simp) (by simp))
    | acked x y h' hd hx =>
      obtain ⟨h1, h2, h3, h4, h5, h6⟩ := h
      have hxy : x = y := by
        have : (s.foreignAck || decide (x ≠ y)) = false := hp.2
        simp only [Bool.or_eq_false_iff, decide_eq_false_iff_not, ne_eq, Classical.not_not] at this
        exact this.2
      subst hxy
      refine ⟨h1, fun z hz => by simp at hz, h3, fun z ha _ => ?_, h5, h6⟩
      by_cases hzx : z = x
      · subst hzx
        have ha : (s.cli z).active := ha
        simp [Cli.active, hd] at ha
      · exact h4 z ha (by rw [h']; simp; omega)

/-- How long a consumer can believe in a delivery. -/
theorem believes_bound {T D R E : Nat} (hT : period T ≠ 0) {s : St} (h : ReachWith false T (fun s => Prompt D R E s ∧ s.foreignAck = false) s) {x : Nat}
    (hb : (s.cli x).phase = .holding) : s.now ≤ (s.cli x).delivered + D + max (nextBound T) (adjusted T + R) + E := by
  obtain ⟨hi, hp, _⟩ := code_inv hT h
  have hlt : x < s.next := Classical.byContradiction fun hn => by have := (hi.fresh x (by omega)).1; rw [hb] at this; cases this
  have hc := hi.cli x
  have hx := hp x hlt
  have h1 := hc.last hb
  have h2 := hc.beat hb
  have h3 := hc.since hb
  cases hcl : (s.cli x).call with
  | idle => simp only [CliPrompt, hb, hcl] at hx; omega
  | sent t => simp only [CliPrompt, hb, hcl] at hx; have := hc.sent t hb hcl; omega
  | answered k t => simp only [CliPrompt, hb, hcl] at hx; have := hc.ans t k hb hcl; omega

end Willow.ItemLease
