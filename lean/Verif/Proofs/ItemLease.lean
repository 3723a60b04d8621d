import Verif.Spec.ItemLease
/-
Invariants of the timed model of an item and its consumers.
-/
namespace Willow.ItemLease

/-- The consumer may still come to believe, or believes. -/
def Cli.active (c : Cli) : Prop := c.phase = .pending ∨ c.phase = .holding

/-- What holds of one item object; `ok` is the last time the server delivered or renewed its delivery. -/
structure CliInv (T D R now ok : Nat) (c : Cli) : Prop where
  pending : c.phase = .pending → c.delivered ≤ ok ∧ c.call = .idle
  last : c.phase = .holding → c.last ≤ ok + max D R
  lastNow : c.phase = .holding → c.last ≤ now ∧ 0 < adjusted T
  since : c.phase = .holding → c.since < c.last + adjusted T + R
  beat : c.phase = .holding → c.beat < c.last + adjusted T + period T
  sentAt : ∀ t, c.call = .sent t → t ≤ now
  sent : ∀ t, c.phase = .holding → c.call = .sent t → t < c.last + adjusted T
  ans : ∀ t k, c.phase = .holding → c.call = .answered k t → t < c.last + adjusted T
  ansOk : ∀ t, c.phase = .holding → c.call = .answered .ok t → t ≤ ok

/-- What holds of all timely states. -/
structure Inv (T D R : Nat) (ok : Nat → Nat) (s : St) : Prop where
  fresh : ∀ x, s.next ≤ x → (s.cli x).phase = .done ∧ (s.cli x).call = .idle
  owner : ∀ x, s.owner = some x → s.next = x + 1 ∧ (s.started = true → s.deadline = ok x + T)
  le : ∀ x, ok x ≤ s.now
  lost : ∀ x, (s.cli x).active → s.owner ≠ some x → ok x + T ≤ s.now
  later : ∀ x y, x < y → y < s.next → (s.cli x).active → ok x + T ≤ (s.cli y).delivered
  cli : ∀ x, CliInv T D R s.now (ok x) (s.cli x)

theorem inv_init (T D R : Nat) : Inv T D R (fun _ => 0) init := by
  constructor
  case cli => intro x; constructor <;> simp [init, noCli]
  all_goals simp [init, noCli, Cli.active]

theorem inv_set {T D R : Nat} {ok : Nat → Nat} {s : St} (h : Inv T D R ok s) (x : Nat) (c : Cli)
    (hf : s.next ≤ x → c.phase = .done ∧ c.call = .idle)
    (hp : c.active → (s.cli x).active) (hg : c.delivered = (s.cli x).delivered)
    (hc : CliInv T D R s.now (ok x) c) : Inv T D R ok (s.set x c) := by
  obtain ⟨h1, h2, h3, h4, h5, h6⟩ := h
  constructor <;> dsimp only [St.set]
  · intro y hy
    by_cases e : y = x
    · subst e; simpa using hf hy
    · simpa [e] using h1 y hy
  · exact h2
  · exact h3
  · intro y
    by_cases e : y = x
    · subst e; simpa using fun ha => h4 y (hp ha)
    · simpa [e] using h4 y
  · intro a b hab hb
    have := h5 a b hab hb
    by_cases ha : a = x <;> by_cases hb' : b = x <;> simp only [ha, hb', if_true, if_false]
    · omega
    · subst ha; exact fun e => this (hp e)
    · subst hb'; simpa [hg] using this
    · exact this
  · intro y
    by_cases hy : y = x
    · subst hy; simpa using hc
    · simpa [hy] using h6 y

theorem CliInv.mono {T D R now ok ok' : Nat} {c : Cli} (h : CliInv T D R now ok c) (hok : ok ≤ ok') : CliInv T D R now ok' c := by
  obtain ⟨h1, h2, h2', h3, h4, h5, h6, h7, h8⟩ := h
  exact ⟨fun p => ⟨Nat.le_trans (h1 p).1 hok, (h1 p).2⟩, fun p => by have := h2 p; omega, h2', h3, h4, h5, h6, h7,
    fun t p e => Nat.le_trans (h8 t p e) hok⟩

theorem CliInv.time {T D R now now' ok : Nat} {c : Cli} (h : CliInv T D R now ok c) (hn : now ≤ now') : CliInv T D R now' ok c := by
  obtain ⟨h1, h2, h2', h3, h4, h5, h6, h7, h8⟩ := h
  exact ⟨h1, h2, fun p => ⟨Nat.le_trans (h2' p).1 hn, (h2' p).2⟩, h3, h4, fun t e => Nat.le_trans (h5 t e) hn, h6, h7, h8⟩

/-- The delivery that is being processed was renewed now. -/
def okNow (s : St) (ok : Nat → Nat) : Nat → Nat := fun y => if s.owner = some y then s.now else ok y

theorem inv_beat {T D R : Nat} {ok : Nat → Nat} {s : St} (h : Inv T D R ok s) : Inv T D R (okNow s ok) (s.beat T) := by
  by_cases ho : s.owner = none
  · have : okNow s ok = ok := by funext y; simp [okNow, ho]
    simp only [St.beat, ho, ne_eq, not_true, if_false, this]; exact h
  · obtain ⟨x, hx⟩ := Option.ne_none_iff_exists'.mp ho
    obtain ⟨h1, h2, h3, h4, h5, h6⟩ := h
    simp only [St.beat, hx, ne_eq, reduceCtorEq, not_false_eq_true, if_true]
    constructor
    · exact h1
    · intro y hy
      cases hy
      exact ⟨(h2 x hx).1, fun _ => by simp [okNow, hx]⟩
    · intro y
      simp only [okNow]
      split
      · exact Nat.le_refl _
      · exact h3 y
    · intro y ha ho'
      have : s.owner ≠ some y := fun e => ho' (by rw [← hx, e])
      simp only [okNow, if_neg this]
      exact h4 y ha this
    · intro a b hab hb ha
      have : s.owner ≠ some a := fun e => by have := (h2 a e).1; dsimp only at hb; omega
      simp only [okNow, if_neg this]
      exact h5 a b hab hb ha
    · intro y
      simp only [okNow]
      split
      · exact (h6 y).mono (h3 y)
      · exact h6 y

theorem beat_cli (T : Nat) (s : St) (y : Nat) : (s.beat T).cli y = s.cli y := by
  unfold St.beat; split <;> rfl

theorem beat_now (T : Nat) (s : St) : (s.beat T).now = s.now := by
  unfold St.beat; split <;> rfl

theorem beat_next (T : Nat) (s : St) : (s.beat T).next = s.next := by
  unfold St.beat; split <;> rfl

theorem timely_facts {T D R E : Nat} {ok : Nat → Nat} {s : St} (h : Inv T D R ok s) (ht : Timely D R E s) :
    (∀ x, (s.cli x).phase = .pending → s.now ≤ (s.cli x).delivered + D) ∧
    (∀ x t, (s.cli x).phase = .holding → (s.cli x).call = .sent t → s.now ≤ t + R) ∧
    (∀ x t c, (s.cli x).phase = .holding → (s.cli x).call = .answered c t → s.now ≤ t + R) ∧
    (∀ x, (s.cli x).phase = .holding → (s.cli x).call = .idle → s.now ≤ max (s.cli x).beat (s.cli x).since + E) ∧
    s.stale = false := by
  have hlt : ∀ x, (s.cli x).phase ≠ .done → x < s.next := fun x hx =>
    Classical.byContradiction fun hn => hx (h.fresh x (by omega)).1
  refine ⟨?_, ?_, ?_, ?_, ht.2.1⟩
  · intro x hp; have := ht.1 x (hlt x (by simp [hp])); simpa [CliPrompt, hp] using this
  · intro x t hp hc; have := ht.1 x (hlt x (by simp [hp])); simpa [CliPrompt, hp, hc] using this
  · intro x t c hp hc; have := ht.1 x (hlt x (by simp [hp])); simpa [CliPrompt, hp, hc] using this
  · intro x hp hc; have := ht.1 x (hlt x (by simp [hp])); simpa only [CliPrompt, hp, hc] using this

theorem inv_step {T D R E : Nat} (hT : max D R + adjusted T + R ≤ T) {ok : Nat → Nat} {s s' : St} (h : Inv T D R ok s)
    (ht : Timely D R E s) (hs : Step hdr T s s') (ht' : Timely D R E s') : ∃ ok', Inv T D R ok' s' := by
  obtain ⟨tg, ts, ta, tr, tn⟩ := timely_facts h ht
  have hfresh : ∀ x, (s.cli x).phase ≠ .done → ¬ s.next ≤ x := fun x hx hn => hx (h.fresh x hn).1
  cases hs with
  | wait d =>
    obtain ⟨h1, h2, h3, h4, h5, h6⟩ := h
    refine ⟨ok, ?_⟩
    constructor <;> dsimp only
    · exact h1
    · exact h2
    · intro x; have := h3 x; omega
    · intro x a b; have := h4 x a b; omega
    · exact h5
    · intro x; exact (h6 x).time (by omega)
  | deliver h' =>
    obtain ⟨h1, h2, h3, h4, h5, h6⟩ := h
    refine ⟨fun x => if x = s.next then s.now else ok x, ?_⟩
    have hne : ∀ x, s.owner ≠ some x := by simp [h']
    constructor <;> dsimp only [St.deliver]
    · intro y hy
      rw [if_neg (by omega)]; exact h1 y (by omega)
    · intro y hy; cases hy; simp
    · intro y
      split
      · exact Nat.le_refl _
      · exact h3 y
    · intro y ha hy
      have hy' : y ≠ s.next := fun e => hy (by rw [e])
      rw [if_neg hy'] at ha ⊢
      exact h4 y ha (hne y)
    · intro a b hab hb ha
      have ha' : a ≠ s.next := by omega
      rw [if_neg ha'] at ha ⊢
      by_cases hb' : b = s.next
      · rw [if_pos hb']; exact h4 a ha (hne a)
      · rw [if_neg hb']; exact h5 a b hab (by omega) ha
    · intro y
      by_cases hy : y = s.next
      · subst hy; constructor <;> simp
      · simpa [hy] using h6 y
  | start x h' hs =>
    obtain ⟨h1, h2, h3, h4, h5, h6⟩ := h
    refine ⟨okNow s ok, ?_⟩
    constructor
    · exact h1
    · intro y hy
      have hy : s.owner = some y := hy
      refine ⟨(h2 y hy).1, fun _ => by simp [okNow, hy]⟩
    · intro y
      simp only [okNow]
      split
      · exact Nat.le_refl _
      · exact h3 y
    · intro y ha (ho' : s.owner ≠ some y)
      simp only [okNow, if_neg ho']
      exact h4 y ha ho'
    · intro a b hab hb ha
      have : s.owner ≠ some a := fun e => by have := (h2 a e).1; dsimp only at hb; omega
      simp only [okNow, if_neg this]
      exact h5 a b hab hb ha
    · intro y
      simp only [okNow]
      split
      · exact (h6 y).mono (h3 y)
      · exact h6 y
  | unstart x h' hs hp =>
    refine ⟨ok, ?_⟩
    obtain ⟨h1, h2, h3, h4, h5, h6⟩ := h
    constructor <;> dsimp only [St.set]
    · intro y hy
      by_cases e : y = x
      · subst e; have := h1 y hy; rw [hp] at this; simp at this
      · simpa [e] using h1 y hy
    · simp
    · exact h3
    · intro y
      by_cases e : y = x
      · simp [e, Cli.active]
      · simp only [e, if_false]
        intro ha _
        exact h4 y ha (by rw [h']; intro e'; exact e (Option.some.inj e').symm)
    · intro a b hab hb
      have := h5 a b hab hb
      by_cases ha : a = x
      · simp [ha, Cli.active]
      · by_cases hb' : b = x <;> simp only [ha, hb', if_true, if_false]
        · subst hb'; exact this
        · exact this
    · intro y
      by_cases hy : y = x
      · subst hy
        obtain ⟨a1, a2, a2', a3, a4, a5, a6, a7, a8⟩ := h6 y
        simp only [if_true]
        constructor <;> simp [(a1 hp).2]
      · simpa [hy] using h6 y
  | expire x h' hs hx =>
    obtain ⟨h1, h2, h3, h4, h5, h6⟩ := h
    refine ⟨ok, ?_⟩
    constructor <;> dsimp only
    · exact h1
    · simp
    · exact h3
    · intro y ha _
      by_cases hy : s.owner = some y
      · have := (h2 y hy).2 hs
        rw [tn] at hx
        rcases hx with hx | hx
        · cases hx
        · omega
      · exact h4 y ha hy
    · exact h5
    · exact h6
  | delivered x h' =>
    refine ⟨ok, ?_⟩
    have hg := tg x h'
    refine inv_set h x _ (fun hn => absurd hn (hfresh x (by simp [h']))) (fun _ => .inl h')
      (by unfold Cli.start; split <;> rfl) ?_
    obtain ⟨a1, a2, a2', a3, a4, a5, a6, a7, a8⟩ := h.cli x
    unfold Cli.start
    split
    · exact ⟨by simp, by simp, by simp, by simp, by simp, a5, by simp, by simp, by simp⟩
    · rename_i hp
      have hadj : 0 < adjusted T := by unfold period at hp; omega
      have := (a1 h').1
      refine ⟨by simp, fun _ => ?_, fun _ => ⟨Nat.le_refl _, hadj⟩, fun _ => ?_, fun _ => ?_, a5, by simp [(a1 h').2], by simp [(a1 h').2], by simp [(a1 h').2]⟩
      · show s.now ≤ ok x + max D R; omega
      · show s.now < s.now + adjusted T + R; omega
      · show s.now + period T < s.now + adjusted T + period T; omega
  | undelivered x h' =>
    refine ⟨ok, inv_set h x _ (fun hn => absurd hn (hfresh x (by simp [h']))) (fun _ => .inl h') rfl ?_⟩
    obtain ⟨a1, a2, a2', a3, a4, a5, a6, a7, a8⟩ := h.cli x
    exact ⟨by simp, by simp, by simp, by simp, by simp, a5, by simp, by simp, by simp⟩
  | tick x h' hi hb =>
    refine ⟨ok, inv_set h x _ (fun hn => absurd hn (hfresh x (by simp [h']))) (fun _ => .inr h')
      (by unfold Cli.tick; split <;> rfl) ?_⟩
    obtain ⟨a1, a2, a2', a3, a4, a5, a6, a7, a8⟩ := h.cli x
    unfold Cli.tick
    split
    · exact ⟨by simp, by simp, by simp, by simp, by simp, a5, by simp, by simp, by simp⟩
    · rename_i hl
      have hm := Nat.mul_div_le (s.now - (s.cli x).beat) (period T)
      refine ⟨by simp [h'], a2, a2', a3, fun _ => ?_, by simp, ?_, by simp, by simp⟩
      · show (s.cli x).beat + period T * ((s.now - (s.cli x).beat) / period T + 1) < (s.cli x).last + adjusted T + period T
        rw [Nat.mul_add]; omega
      · intro t _ e
        simp only [Call.sent.injEq] at e
        show t < (s.cli x).last + adjusted T
        omega
  | handle x t hc hs =>
    refine ⟨okNow s ok, inv_set (inv_beat h) x _ ?_ ?_ ?_ ?_⟩
    · rw [beat_next]; intro hn; have := h.fresh x hn; simp_all
    · rw [beat_cli]; exact id
    · rw [beat_cli]
    · have hb := (inv_beat h).cli x
      simp only [beat_cli, beat_now] at hb ⊢
      obtain ⟨a1, a2, a2', a3, a4, a5, a6, a7, a8⟩ := hb
      have h5 := a5 t hc
      refine ⟨fun hp => by simp [(a1 hp).2] at hc, a2, a2', a3, a4, by simp, by simp, fun t' k hp e => ?_, fun t' hp e => ?_⟩
      · simp only [Call.answered.injEq] at e
        have := a6 t hp hc
        rw [← e.2]; exact this
      · simp only [Call.answered.injEq] at e
        obtain ⟨e1, e2⟩ := e
        subst e2
        have hp : (s.cli x).phase = .holding := hp
        have h6 := a6 t hp hc
        have h7 := ts x t hp hc
        have h8 := (h.cli x).last hp
        have h9 := (h.cli x).sent t hp hc
        simp only [okNow]
        split
        · exact h5
        · rename_i ho
          have := h.lost x (.inr hp) ho
          omega
  | reject x t hc hh =>
    refine ⟨ok, inv_set h x _ (fun hn => by have := (h.fresh x hn).2; rw [hc] at this; cases this) (fun hp => hp) rfl ?_⟩
    obtain ⟨a1, a2, a2', a3, a4, a5, a6, a7, a8⟩ := h.cli x
    exact ⟨fun hp => by simp [(a1 hp).2] at hc, a2, a2', a3, a4, by simp, by simp,
      fun t' k hp e => by simp only [Call.answered.injEq] at e; rw [← e.2]; exact a6 t hp hc, fun t' hp e => by simp at e⟩
  | handleLost x hl hs =>
    refine ⟨okNow s ok, inv_set (inv_beat h) x _ ?_ ?_ ?_ ?_⟩
    · rw [beat_next]; intro hn; have := h.fresh x hn; simp_all
    · rw [beat_cli]; exact id
    · rw [beat_cli]
    · have hb := (inv_beat h).cli x
      simp only [beat_cli, beat_now] at hb ⊢
      obtain ⟨a1, a2, a2', a3, a4, a5, a6, a7, a8⟩ := hb
      exact ⟨a1, a2, a2', a3, a4, a5, a6, a7, a8⟩
  | fail x h' hc =>
    refine ⟨ok, inv_set h x _ (fun hn => absurd hn (hfresh x (by simp [h']))) (fun _ => .inr h') rfl ?_⟩
    obtain ⟨a1, a2, a2', a3, a4, a5, a6, a7, a8⟩ := h.cli x
    refine ⟨by simp [Cli.fail, h'], a2, a2', fun _ => ?_, a4, by simp [Cli.fail], by simp [Cli.fail], by simp [Cli.fail], by simp [Cli.fail]⟩
    show s.now < (s.cli x).last + adjusted T + R
    cases hcl : (s.cli x).call with
    | idle => exact absurd hcl hc
    | sent t => have := ts x t h' hcl; have := a6 t h' hcl; omega
    | answered k t => have := ta x t k h' hcl; have := a7 t k h' hcl; omega
  | failDone x h' hc =>
    refine ⟨ok, inv_set h x _ ?_ (by simp [Cli.active]) rfl ?_⟩
    · intro hn
      exact absurd (h.fresh x hn).2 hc
    · obtain ⟨a1, a2, a2', a3, a4, a5, a6, a7, a8⟩ := h.cli x
      exact ⟨by simp, by simp, by simp, by simp, by simp, a5, by simp, by simp, by simp⟩
  | receive x t c h' hc =>
    refine ⟨ok, inv_set h x _ (fun hn => absurd hn (hfresh x (by simp [h']))) (fun _ => .inr h') (by cases c <;> rfl) ?_⟩
    obtain ⟨a1, a2, a2', a3, a4, a5, a6, a7, a8⟩ := h.cli x
    have h7 := ta x t c h' hc
    have h8 := a7 t c h' hc
    cases c with
    | ok =>
      have h9 := a8 t h' hc
      refine ⟨by simp [Cli.receive, h'], fun _ => ?_, fun _ => ⟨Nat.le_refl _, (a2' h').2⟩, fun _ => ?_, fun _ => ?_, by simp [Cli.receive], by simp [Cli.receive],
        by simp [Cli.receive], by simp [Cli.receive]⟩
      · show s.now ≤ ok x + max D R; omega
      · show s.now < s.now + adjusted T + R
        have := (a2' h').2; omega
      · show (s.cli x).beat < s.now + adjusted T + period T
        have := (a2' h').1; have := a4 h'; omega
    | other =>
      refine ⟨by simp [Cli.receive, h'], a2, a2', fun _ => ?_, a4, by simp [Cli.receive], by simp [Cli.receive],
        by simp [Cli.receive], by simp [Cli.receive]⟩
      show s.now < (s.cli x).last + adjusted T + R; omega
  | receiveDone x t c h' hc =>
    refine ⟨ok, inv_set h x _ (fun _ => ⟨h', rfl⟩) (fun ha => ha) rfl ?_⟩
    constructor <;> simp [h']
  | ack x h' =>
    refine ⟨ok, inv_set h x _ (fun hn => absurd hn (hfresh x (by simp [h']))) (by simp [Cli.active]) rfl ?_⟩
    obtain ⟨a1, a2, a2', a3, a4, a5, a6, a7, a8⟩ := h.cli x
    exact ⟨by simp, by simp, by simp, by simp, by simp, a5, by simp, by simp, by simp⟩
  | acked x y h' hd hx =>
    have := ht'.2.2
    simp only [Bool.or_eq_false_iff, decide_eq_false_iff_not, ne_eq, Classical.not_not] at this
    obtain ⟨_, e⟩ := this
    subst e
    obtain ⟨h1, h2, h3, h4, h5, h6⟩ := h
    refine ⟨ok, ?_⟩
    constructor <;> dsimp only
    · exact h1
    · simp
    · exact h3
    · intro y ha _
      refine h4 y ha fun e => ?_
      rw [h'] at e; cases e
      rw [Cli.active, hd] at ha; simp at ha
    · exact h5
    · exact h6

theorem timely_init (D R E : Nat) : Timely D R E init := by
  refine ⟨?_, rfl, rfl⟩
  intro x hx; simp [init] at hx

theorem timely_inv {T D R E : Nat} (hT : max D R + adjusted T + R ≤ T) {s : St} (h : ReachWith hdr T (Timely D R E) s) :
    Timely D R E s ∧ ∃ ok, Inv T D R ok s := by
  induction h with
  | init => exact ⟨timely_init D R E, _, inv_init T D R⟩
  | step _ hs ht ih => exact ⟨ht, inv_step hT ih.2.choose_spec ih.1 hs ht⟩

theorem ReachWith.mono {T : Nat} {P Q : St → Prop} (hPQ : ∀ s, P s → Q s) {s : St} (h : ReachWith hdr T P s) : ReachWith hdr T Q s := by
  induction h with
  | init => exact .init
  | step _ hs hp ih => exact .step ih hs (hPQ _ hp)

/-! Concrete runs: the same actions as a function, to compute examples. -/

inductive Act
  | wait (d : Nat)
  | deliver
  | start
  | expire
  | delivered (x : Nat)
  | tick (x : Nat)
  | reject (x : Nat)
  | receive (x : Nat)
  | failDone (x : Nat)
  | ack (x : Nat)
  | acked (x : Nat)

instance (D R E now : Nat) (c : Cli) : Decidable (CliPrompt D R E now c) := by unfold CliPrompt; split <;> infer_instance

instance (D R E : Nat) (s : St) : Decidable (Prompt D R E s) := by unfold Prompt; infer_instance

def exec1 (T : Nat) (s : St) : Act → Option St
  | .wait d => some { s with now := s.now + d }
  | .deliver => if s.owner = none then some s.deliver else none
  | .start => if s.owner ≠ none ∧ s.started = false then some { s with started := true, deadline := s.now + T } else none
  | .expire => if s.owner ≠ none ∧ s.started = true ∧ (s.stale = true ∨ s.deadline ≤ s.now) then some { s with owner := none } else none
  | .delivered x => if (s.cli x).phase = .pending then some (s.set x ((s.cli x).start T s.now)) else none
  | .tick x => if (s.cli x).phase = .holding ∧ (s.cli x).call = .idle ∧ (s.cli x).beat ≤ s.now then
      some (s.set x ((s.cli x).tick T s.now)) else none
  | .reject x => match (s.cli x).call with
    | .sent t => some (s.set x { s.cli x with call := .answered .other t })
    | _ => none
  | .receive x => match (s.cli x).call with
    | .answered c _ => if (s.cli x).phase = .holding then some (s.set x ((s.cli x).receive c s.now)) else none
    | _ => none
  | .failDone x => if (s.cli x).phase = .done ∧ (s.cli x).call ≠ .idle then some (s.set x { s.cli x with phase := .crashed }) else none
  | .ack x => if (s.cli x).phase = .holding then some (s.set x { s.cli x with phase := .done }) else none
  | .acked x => match s.owner with
    | some y => if (s.cli x).phase = .done ∧ x < s.next then
        some { s with owner := none, foreignAck := s.foreignAck || decide (x ≠ y) } else none
    | none => none

def exec (T : Nat) (P : St → Prop) [DecidablePred P] (s : St) : List Act → Option St
  | [] => some s
  | a :: as => match exec1 T s a with
    | none => none
    | some s' => if P s' then exec T P s' as else none

theorem exec1_sound {T : Nat} {s s' : St} {a : Act} (h : exec1 T s a = some s') : Step false T s s' := by
  cases a <;> simp only [exec1] at h
  case wait d => cases h; exact .wait _ _
  case deliver => split at h <;> rename_i hc <;> cases h; exact .deliver _ hc
  case start =>
    split at h <;> rename_i hc <;> cases h
    obtain ⟨x, hx⟩ := Option.ne_none_iff_exists'.mp hc.1
    exact .start _ x hx hc.2
  case expire =>
    split at h <;> rename_i hc <;> cases h
    obtain ⟨x, hx⟩ := Option.ne_none_iff_exists'.mp hc.1
    exact .expire _ x hx hc.2.1 hc.2.2
  case delivered x => split at h <;> rename_i hc <;> cases h; exact .delivered _ x hc
  case tick x => split at h <;> rename_i hc <;> cases h; exact .tick _ x hc.1 hc.2.1 hc.2.2
  case reject x =>
    split at h
    · rename_i t ht
      cases h
      exact .reject _ x t ht rfl
    · cases h
  case receive x =>
    split at h
    · rename_i c t ht
      split at h <;> rename_i hc <;> cases h
      exact .receive _ x t c hc ht
    · cases h
  case failDone x => split at h <;> rename_i hc <;> cases h; exact .failDone _ x hc.1 hc.2
  case ack x => split at h <;> rename_i hc <;> cases h; exact .ack _ x hc
  case acked x =>
    split at h
    · rename_i y hy
      split at h <;> rename_i hc <;> cases h
      exact .acked _ x y hy hc.1 hc.2
    · cases h

theorem exec_sound {T : Nat} {P : St → Prop} [DecidablePred P] {s s' : St} {as : List Act} (h : exec T P s as = some s')
    (hs : ReachWith false T P s) : ReachWith false T P s' := by
  induction as generalizing s with
  | nil => cases h; exact hs
  | cons a as ih =>
    simp only [exec] at h
    cases h1 : exec1 T s a with
    | none => rw [h1] at h; cases h
    | some s1 =>
      rw [h1] at h
      simp only at h
      by_cases hp : P s1
      · rw [if_pos hp] at h
        exact ih h (.step hs (exec1_sound h1) hp)
      · rw [if_neg hp] at h; cases h

/-- A computed run ends in a reachable state with the checked property. -/
theorem exec_reach {T : Nat} {P : St → Prop} [DecidablePred P] (as : List Act) (f : St → Bool)
    (h : (exec T P init as).any f = true) : ∃ s, ReachWith false T P s ∧ f s = true := by
  cases he : exec T P init as with
  | none => rw [he] at h; simp at h
  | some s => rw [he] at h; exact ⟨s, exec_sound he .init, by simpa using h⟩

/-- No item object has panicked. -/
theorem no_crash {T : Nat} (hT : period T ≠ 0) {s : St}
    (h : ReachWith hdr T (fun s => ∀ x, (s.cli x).phase = .done → (s.cli x).call = .idle) s) :
    (∀ x, (s.cli x).phase = .done → (s.cli x).call = .idle) ∧ ∀ x, (s.cli x).phase ≠ .crashed := by
  induction h with
  | init => simp [init, noCli]
  | @step s s' h hs hp ih =>
    refine ⟨hp, ?_⟩
    obtain ⟨h1, h2⟩ := ih
    have hset : ∀ x (c : Cli), c.phase ≠ .crashed → ∀ y, ((s.set x c).cli y).phase ≠ .crashed := by
      intro x c hc y
      simp only [St.set]
      split
      · exact hc
      · exact h2 y
    have hbeat : ∀ x (c : Cli), c.phase ≠ .crashed → ∀ y, (((s.beat T).set x c).cli y).phase ≠ .crashed := by
      intro x c hc y
      simp only [St.set]
      split
      · exact hc
      · rw [beat_cli]; exact h2 y
    cases hs with
    | wait d => exact h2
    | deliver h' =>
      intro y; simp only [St.deliver]
      split
      · simp
      · exact h2 y
    | start x h' hs => exact h2
    | unstart x h' hs hp => exact hset x _ (by simp)
    | expire x h' hs ht => exact h2
    | delivered x h' =>
      refine hset x _ ?_
      unfold Cli.start; rw [if_neg hT]; simp
    | undelivered x h' => exact hset x _ (by simp)
    | tick x h' hi hb =>
      refine hset x _ ?_
      unfold Cli.tick
      split <;> simp [h']
    | handle x t hc hs => exact hbeat x _ (h2 x)
    | handleLost x hl hs => exact hbeat x _ (h2 x)
    | reject x t hc hh => exact hset x _ (h2 x)
    | fail x h' hc => exact hset x _ (by simp [Cli.fail, h'])
    | failDone x h' hc => exact absurd (h1 x h') hc
    | receive x t c h' hc => exact hset x _ (by cases c <;> simp [Cli.receive, h'])
    | receiveDone x t c h' hc => exact hset x _ (by simp [h'])
    | ack x h' => exact hset x _ (by simp)
    | acked x y h' hd hx => exact h2

/-! Runs with two deliveries, written out. -/

/-- A state with at most two deliveries. -/
def two (now : Nat) (owner : Option Nat) (started : Bool) (deadline next : Nat) (c0 c1 : Cli) : St :=
  { now := now, owner := owner, started := started, deadline := deadline, stale := false, next := next, foreignAck := false
    cli := fun y => if y = 0 then c0 else if y = 1 then c1 else noCli }

theorem two_set0 (now : Nat) (owner : Option Nat) (started : Bool) (deadline next : Nat) (c0 c1 c : Cli) :
    (two now owner started deadline next c0 c1).set 0 c = two now owner started deadline next c c1 := by
  simp only [two, St.set]; congr 1; funext y; by_cases hy : y = 0 <;> simp [hy]

theorem two_set1 (now : Nat) (owner : Option Nat) (started : Bool) (deadline next : Nat) (c0 c1 c : Cli) :
    (two now owner started deadline next c0 c1).set 1 c = two now owner started deadline next c0 c := by
  simp only [two, St.set]; congr 1; funext y
  by_cases hy : y = 1
  · subst hy; simp
  · simp [hy]

theorem two_timely {D R E now : Nat} {owner : Option Nat} {started : Bool} {deadline next : Nat} {c0 c1 : Cli}
    (h0 : CliPrompt D R E now c0) (h1 : CliPrompt D R E now c1) :
    Timely D R E (two now owner started deadline next c0 c1) := by
  refine ⟨fun x _ => ?_, rfl, rfl⟩
  simp only [two]
  by_cases hx : x = 0
  · simpa [hx] using h0
  · by_cases hx1 : x = 1
    · simpa [hx1] using h1
    · simp [hx, hx1, noCli, CliPrompt]

theorem ReachWith.to {T : Nat} {P : St → Prop} {s s' s'' : St} (h : ReachWith hdr T P s) (hs : Step hdr T s s') (e : s' = s'') (hp : P s'') :
    ReachWith hdr T P s'' := e ▸ .step h hs (e ▸ hp)

section
variable {T D R E now : Nat} {owner : Option Nat} {started : Bool} {deadline next : Nat} {c0 c1 : Cli}

theorem two_wait (d : Nat) (h : ReachWith hdr T (Timely D R E) (two now owner started deadline next c0 c1))
    (h0 : CliPrompt D R E (now + d) c0) (h1 : CliPrompt D R E (now + d) c1) :
    ReachWith hdr T (Timely D R E) (two (now + d) owner started deadline next c0 c1) :=
  .step h (.wait _ d) (two_timely h0 h1)

theorem two_tick0 (h : ReachWith hdr T (Timely D R E) (two now owner started deadline next c0 c1)) (hp : c0.phase = .holding)
    (hi : c0.call = .idle) (hb : c0.beat = now) (hl : now - c0.last < adjusted T) (h1 : CliPrompt D R E now c1) :
    ReachWith hdr T (Timely D R E)
      (two now owner started deadline next { c0 with call := .sent now, beat := now + period T } c1) := by
  refine h.to (.tick _ 0 hp hi (by simp [two, hb])) ?_ (two_timely (by simp [CliPrompt, hp]) h1)
  rw [two_set0]; congr 1
  simp only [two, if_true, Cli.tick]
  rw [if_neg (by omega)]; simp [hb]

theorem two_tick1 (h : ReachWith hdr T (Timely D R E) (two now owner started deadline next c0 c1)) (hp : c1.phase = .holding)
    (hi : c1.call = .idle) (hb : c1.beat = now) (hl : now - c1.last < adjusted T) (h1 : CliPrompt D R E now c0) :
    ReachWith hdr T (Timely D R E)
      (two now owner started deadline next c0 { c1 with call := .sent now, beat := now + period T }) := by
  refine h.to (.tick _ 1 hp hi (by simp [two, hb])) ?_ (two_timely h1 (by simp [CliPrompt, hp]))
  rw [two_set1]; congr 1
  have e : (two now owner started deadline next c0 c1).cli 1 = c1 := rfl
  have e' : (two now owner started deadline next c0 c1).now = now := rfl
  rw [e, e', Cli.tick, if_neg (by omega)]; simp [hb]

theorem two_fail0 (h : ReachWith hdr T (Timely D R E) (two now owner started deadline next c0 c1)) (hp : c0.phase = .holding)
    (hi : c0.call ≠ .idle) (h1 : CliPrompt D R E now c1) :
    ReachWith hdr T (Timely D R E)
      (two now owner started deadline next { c0 with call := .idle, since := now, lost := c0.lost + 1 } c1) := by
  refine h.to (.fail _ 0 hp hi) (by rw [two_set0]; rfl) (two_timely (by simp [CliPrompt, hp]; omega) h1)

theorem two_handle0 {x : Nat} (h : ReachWith true T (Timely D R E) (two now (some x) true deadline next c0 c1)) {t : Nat}
    (hi : c0.call = .sent t) (hd : now < deadline)
    (h0 : CliPrompt D R E now { c0 with call := .answered .ok t }) (h1 : CliPrompt D R E now c1) :
    ReachWith true T (Timely D R E) (two now (some x) true (now + T) next { c0 with call := .answered .ok t } c1) := by
  refine h.to (.handle _ 0 t hi (.inr rfl) rfl) ?_ (two_timely h0 h1)
  have : (two now (some x) true deadline next c0 c1).beat T = two now (some x) true (now + T) next c0 c1 := by
    simp [St.beat, two]; exact decide_eq_false (by omega)
  rw [this, two_set0]; rfl

theorem two_handle1 {x : Nat} (h : ReachWith true T (Timely D R E) (two now (some x) true deadline next c0 c1)) {t : Nat}
    (hi : c1.call = .sent t) (hd : now < deadline)
    (h0 : CliPrompt D R E now { c1 with call := .answered .ok t }) (h1 : CliPrompt D R E now c0) :
    ReachWith true T (Timely D R E) (two now (some x) true (now + T) next c0 { c1 with call := .answered .ok t }) := by
  refine h.to (.handle _ 1 t hi (.inr rfl) rfl) ?_ (two_timely h1 h0)
  have : (two now (some x) true deadline next c0 c1).beat T = two now (some x) true (now + T) next c0 c1 := by
    simp [St.beat, two]; exact decide_eq_false (by omega)
  rw [this, two_set1]; rfl

theorem two_receive0 (h : ReachWith hdr T (Timely D R E) (two now owner started deadline next c0 c1)) (hp : c0.phase = .holding)
    {t : Nat} (hi : c0.call = .answered .ok t) (h1 : CliPrompt D R E now c1) :
    ReachWith hdr T (Timely D R E)
      (two now owner started deadline next { c0 with call := .idle, since := now, last := now } c1) := by
  refine h.to (.receive _ 0 t .ok hp hi) (by rw [two_set0]; rfl) (two_timely (by simp [CliPrompt, hp]; omega) h1)

theorem two_receive1 (h : ReachWith hdr T (Timely D R E) (two now owner started deadline next c0 c1)) (hp : c1.phase = .holding)
    {t : Nat} (hi : c1.call = .answered .ok t) (h1 : CliPrompt D R E now c0) :
    ReachWith hdr T (Timely D R E)
      (two now owner started deadline next c0 { c1 with call := .idle, since := now, last := now }) := by
  refine h.to (.receive _ 1 t .ok hp hi) (by rw [two_set1]; rfl) (two_timely h1 (by simp [CliPrompt, hp]; omega))

end

theorem adjusted_100 (k : Nat) : adjusted (100 * k) = 90 * k := by unfold adjusted; omega

theorem period_100 (k : Nat) : period (100 * k) = 30 * k := by unfold period; rw [adjusted_100]; omega

/-- The first delivery: the first heartbeat is answered after 1, the next two fail; at 120k the fourth is due. -/
theorem run_prefix (k R : Nat) (hk : 0 < k) (hR : 1 ≤ R) : ReachWith true (100 * k) (Timely 0 R 0)
    (two (120 * k) (some 0) true (130 * k) 1 ⟨.holding, 0, 120 * k, 30 * k + 1, 90 * k, .idle, 2⟩ noCli) := by
  have hp := period_100 k
  have ha := adjusted_100 k
  have hn : ∀ n, CliPrompt 0 R 0 n noCli := fun n => by simp [CliPrompt, noCli]
  have r0 : ReachWith true (100 * k) (Timely 0 R 0) (two 0 (some 0) true (100 * k) 1 ⟨.holding, 0, 30 * k, 0, 0, .idle, 0⟩ noCli) := by
    have e1 : init.deliver = two 0 (some 0) false 0 1 ⟨.pending, 0, 0, 0, 0, .idle, 0⟩ noCli := by
      simp only [St.deliver, init, two]; congr 1; funext y; by_cases hy : y = 0 <;> simp [hy]
    have a1 := ReachWith.to (hdr := true) (T := 100 * k) (P := Timely 0 R 0) .init (.deliver _ rfl) e1 (two_timely (by simp [CliPrompt]) (hn _))
    have a2 := a1.to (s'' := two 0 (some 0) true (100 * k) 1 ⟨.pending, 0, 0, 0, 0, .idle, 0⟩ noCli) (.start _ 0 rfl rfl)
      (by simp [two]) (two_timely (by simp [CliPrompt]) (hn _))
    refine a2.to (.delivered _ 0 rfl) ?_ (two_timely (by simp [CliPrompt]) (hn _))
    rw [two_set0]; congr 1
    simp only [two, if_true, Cli.start]
    rw [if_neg (by omega)]; simp [hp]
  have r1 := two_tick0 (two_wait (30 * k) r0 (by simp [CliPrompt]) (hn _)) rfl rfl (by simp) (by simp; omega) (hn _)
  have r2 := two_handle0 r1 rfl (by omega) (by simp [CliPrompt]) (hn _)
  have r3 := two_receive0 (two_wait 1 r2 (by simp [CliPrompt]; omega) (hn _)) rfl rfl (hn _)
  have r4 := two_wait (30 * k - 1) r3 (by simp [CliPrompt]; omega) (hn _)
  have r5 := two_fail0 (two_tick0 r4 rfl rfl (by simp [hp]; omega) (by simp; omega) (hn _)) rfl (by simp) (hn _)
  have r6 := two_wait (30 * k) r5 (by simp [CliPrompt]; omega) (hn _)
  have r7 := two_fail0 (two_tick0 r6 rfl rfl (by simp [hp]) (by simp; omega) (hn _)) rfl (by simp) (hn _)
  have r8 := two_wait (30 * k) r7 (by simp [CliPrompt]; omega) (hn _)
  have e1 : 0 + 30 * k + 1 + (30 * k - 1) + 30 * k + 30 * k = 120 * k := by omega
  have e2 : 0 + 30 * k + 1 + (30 * k - 1) + 30 * k = 90 * k := by omega
  have e3 : 0 + 30 * k + 100 * k = 130 * k := by omega
  have e4 : 90 * k + 30 * k = 120 * k := by omega
  rw [e1] at r8
  simp only [hp, e2, e3, e4] at r8
  have e6 : (0 : Nat) + 30 * k + 1 = 30 * k + 1 := by omega
  rw [e6] at r8
  exact r8

/-- The ticker of the server fires at 130k and the item is delivered again. -/
theorem run_second {k R : Nat} (hk : 0 < k) {c0 : Cli}
    (h : ReachWith true (100 * k) (Timely 0 R 0) (two (130 * k) (some 0) true (130 * k) 1 c0 noCli)) (h0 : CliPrompt 0 R 0 (130 * k) c0) :
    ReachWith true (100 * k) (Timely 0 R 0)
      (two (130 * k) (some 1) true (230 * k) 2 c0 ⟨.holding, 130 * k, 160 * k, 130 * k, 130 * k, .idle, 0⟩) := by
  have hp := period_100 k
  have a1 := h.to (s'' := two (130 * k) none true (130 * k) 1 c0 noCli) (.expire _ 0 rfl rfl (.inr (Nat.le_refl _))) rfl
    (two_timely h0 (by simp [CliPrompt, noCli]))
  have a2 := a1.to (s'' := two (130 * k) (some 1) false 0 2 c0 ⟨.pending, 130 * k, 0, 0, 0, .idle, 0⟩) (.deliver _ rfl)
    (by simp only [St.deliver, two]; congr 1; funext y; by_cases hy : y = 1 <;> simp [hy])
    (two_timely h0 (by simp [CliPrompt]))
  have a3 := a2.to (s'' := two (130 * k) (some 1) true (230 * k) 2 c0 ⟨.pending, 130 * k, 0, 0, 0, .idle, 0⟩) (.start _ 1 rfl rfl)
    (by simp [two]; omega) (two_timely h0 (by simp [CliPrompt]))
  refine a3.to (.delivered _ 1 rfl) ?_ (two_timely h0 (by simp [CliPrompt]; omega))
  rw [two_set1]; congr 1
  simp only [two, Cli.start]
  rw [if_neg (by omega)]; simp [hp]; omega

/-- One period in which both consumers send heartbeats that are answered. -/
theorem run_loop {k R t dl l0 s0 n0 l1 s1 : Nat} (hk : 0 < k) (hd : t + 20 * k < dl) (hl : t ≤ l0 + 10 * k) (hl1 : t ≤ l1)
    (h : ReachWith true (100 * k) (Timely 0 R 0) (two t (some 1) true dl 2 ⟨.holding, 0, t + 20 * k, l0, s0, .idle, n0⟩
      ⟨.holding, 130 * k, t + 30 * k, l1, s1, .idle, 0⟩)) :
    ReachWith true (100 * k) (Timely 0 R 0) (two (t + 30 * k) (some 1) true (t + 130 * k) 2
      ⟨.holding, 0, t + 30 * k + 20 * k, t + 20 * k, t + 20 * k, .idle, n0⟩
      ⟨.holding, 130 * k, t + 30 * k + 30 * k, t + 30 * k, t + 30 * k, .idle, 0⟩) := by
  have hp := period_100 k
  have ha := adjusted_100 k
  have r1 := two_wait (20 * k) h (by simp [CliPrompt]; omega) (by simp [CliPrompt]; omega)
  have r2 := two_tick0 r1 rfl rfl rfl (by simp; omega) (by simp [CliPrompt]; omega)
  have r3 := two_handle0 r2 rfl hd (by simp [CliPrompt]) (by simp [CliPrompt]; omega)
  have r4 := two_receive0 r3 rfl rfl (by simp [CliPrompt]; omega)
  have r5 := two_wait (10 * k) r4 (by simp [CliPrompt, hp]; omega) (by simp [CliPrompt]; omega)
  have r6 := two_tick1 r5 rfl rfl (by simp; omega) (by simp; omega) (by simp [CliPrompt, hp]; omega)
  have r7 := two_handle1 r6 rfl (by omega) (by simp [CliPrompt]) (by simp [CliPrompt, hp]; omega)
  have r8 := two_receive1 r7 rfl rfl (by simp [CliPrompt, hp]; omega)
  have e1 : t + 20 * k + 10 * k = t + 30 * k := by omega
  have e2 : t + 30 * k + 100 * k = t + 130 * k := by omega
  have e3 : t + 30 * k + 20 * k = t + 20 * k + 30 * k := by omega
  rw [e3]
  simpa [hp, e1, e2] using r8

end Willow.ItemLease
