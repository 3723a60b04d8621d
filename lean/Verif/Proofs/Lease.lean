import Verif.Spec.Lease
/-
Invariants of the timed lease model.
-/
namespace Willow.Lease

/-- What holds of one lock object; `ok` is the last time the server granted or renewed its session. -/
structure CliInv (D R E now ok : Nat) (c : Cli) : Prop where
  grant : c.phase = .pending → c.granted ≤ ok ∧ c.call = .idle
  dead : c.phase = .holding → c.dead ≤ ok + max D R + c.timeout
  answered : ∀ t, c.call = .answered .ok t → t ≤ ok
  sentAt : ∀ t, c.call = .sent t → t ≤ now
  call : ∀ t, c.phase = .holding → c.call = .sent t → t ≤ c.dead + E
  call' : ∀ t k, c.phase = .holding → c.call = .answered k t → t ≤ c.dead + E

/-- What holds of all timely states; `ok x` is the last time the server granted or renewed session `x`. -/
structure Inv (D R E : Nat) (ok : Nat → Nat) (s : St) : Prop where
  fresh : ∀ x, s.next ≤ x → (s.cli x).phase = .done
  owner : ∀ x, s.owner = some x → s.next = x + 1 ∧ s.deadline = ok x + (s.cli x).timeout
  le : ∀ x, ok x ≤ s.now
  lost : ∀ x, (s.cli x).phase ≠ .done → s.owner ≠ some x → ok x + (s.cli x).timeout ≤ s.now
  later : ∀ x y, x < y → y < s.next → (s.cli x).phase ≠ .done → ok x + (s.cli x).timeout ≤ (s.cli y).granted
  cli : ∀ x, CliInv D R E s.now (ok x) (s.cli x)

theorem inv_init (D R E : Nat) : Inv D R E (fun _ => 0) init := by
  constructor
  case cli => intro x; constructor <;> simp [init, noCli]
  all_goals simp [init, noCli]

theorem inv_set {D R E : Nat} {ok : Nat → Nat} {s : St} (h : Inv D R E ok s) (x : Nat) (c : Cli)
    (hp : c.phase ≠ .done → (s.cli x).phase ≠ .done) (ht : c.timeout = (s.cli x).timeout) (hg : c.granted = (s.cli x).granted)
    (hc : CliInv D R E s.now (ok x) c) : Inv D R E ok (s.set x c) := by
  obtain ⟨h1, h2, h3, h4, h5, h6⟩ := h
  constructor <;> dsimp only [St.set]
  · grind
  · grind
  · exact h3
  · clear h2 h5 h6; grind
  · clear h2 h4 h6
    intro a b hab hb
    have := h5 a b hab hb
    by_cases ha : a = x <;> by_cases hb' : b = x <;> simp only [ha, hb', if_true, if_false] <;> grind
  · intro y
    by_cases hy : y = x
    · subst hy; simpa using hc
    · simpa [hy] using h6 y

theorem CliInv.mono {D R E now ok ok' : Nat} {c : Cli} (h : CliInv D R E now ok c) (hok : ok ≤ ok') : CliInv D R E now ok' c := by
  obtain ⟨h1, h2, h3, h4, h5, h6⟩ := h
  constructor
  · grind
  · grind
  · grind
  · exact h4
  · exact h5
  · exact h6

theorem inv_beat {D R E : Nat} {ok : Nat → Nat} {s : St} (h : Inv D R E ok s) (x : Nat) :
    Inv D R E (fun y => if y = x ∧ s.owner = some x then s.now else ok y) (s.beat x) := by
  by_cases ho : s.owner = some x
  · simp only [St.beat, St.renew, ho, and_true, if_true]
    obtain ⟨h1, h2, h3, h4, h5, h6⟩ := h
    constructor
    · exact h1
    · clear h6 h5; grind
    · clear h6 h5; grind
    · clear h6 h5; grind
    · clear h6; grind
    · intro y
      by_cases hy : y = x
      · subst hy; simpa using (h6 y).mono (h3 y)
      · simpa [hy] using h6 y
  · simp only [St.beat, ho, and_false, if_false]; exact h

theorem beat_cli (s : St) (x y : Nat) : (s.beat x).cli y = s.cli y := by
  unfold St.beat; split <;> rfl

theorem beat_now (s : St) (x : Nat) : (s.beat x).now = s.now := by
  unfold St.beat; split <;> rfl

theorem timely_facts {D R E : Nat} {ok : Nat → Nat} {s : St} (h : Inv D R E ok s) (ht : Timely D R E s) :
    (∀ x, (s.cli x).phase = .pending → s.now ≤ (s.cli x).granted + D) ∧
    (∀ x t, (s.cli x).phase = .holding → (s.cli x).call = .sent t → s.now ≤ t + R) ∧
    (∀ x t c, (s.cli x).phase = .holding → (s.cli x).call = .answered c t → s.now ≤ t + R) ∧
    (∀ x, (s.cli x).phase = .holding → (s.cli x).call = .idle → s.now ≤ (s.cli x).dead + E) ∧ s.stale = false := by
  have hlt : ∀ x, (s.cli x).phase ≠ .done → x < s.next := fun x hx =>
    Classical.byContradiction fun hn => hx (h.fresh x (by omega))
  refine ⟨?_, ?_, ?_, ?_, ht.2⟩
  · intro x hp; have := ht.1 x (hlt x (by simp [hp])); simpa [CliPrompt, hp] using this
  · intro x t hp hc; have := ht.1 x (hlt x (by simp [hp])); simpa [CliPrompt, hp, hc] using this
  · intro x t c hp hc; have := ht.1 x (hlt x (by simp [hp])); simpa [CliPrompt, hp, hc] using this
  · intro x hp hc; have := ht.1 x (hlt x (by simp [hp])); simpa [CliPrompt, hp, hc] using this

theorem inv_step {D R E : Nat} {ok : Nat → Nat} {s s' : St} (h : Inv D R E ok s) (ht : Timely D R E s) (hs : Step s s') :
    ∃ ok', Inv D R E ok' s' := by
  obtain ⟨tg, ts, ta, tr, tn⟩ := timely_facts h ht
  cases hs with
  | wait d =>
    obtain ⟨h1, h2, h3, h4, h5, h6⟩ := h
    refine ⟨ok, ?_⟩
    constructor <;> dsimp only
    · exact h1
    · exact h2
    · intro x; have := h3 x; omega
    · intro x a b; have := h4 x a b; omega
    · exact h5
    · intro x
      obtain ⟨a1, a2, a3, a4, a5, a6⟩ := h6 x
      exact ⟨a1, a2, a3, fun t e => by have := a4 t e; omega, a5, a6⟩
  | claim timeout h' hp =>
    obtain ⟨h1, h2, h3, h4, h5, h6⟩ := h
    refine ⟨fun x => if x = s.next then s.now else ok x, ?_⟩
    constructor <;> dsimp only [St.claim]
    · clear h6 h5; grind
    · clear h6 h5; grind
    · clear h6 h5; grind
    · clear h6 h5; grind
    · clear h6; grind
    · intro y
      by_cases hy : y = s.next
      · subst hy; constructor <;> simp
      · simpa [hy] using h6 y
  | expire x h' ht =>
    obtain ⟨h1, h2, h3, h4, h5, h6⟩ := h
    refine ⟨ok, ?_⟩
    constructor <;> dsimp only
    · exact h1
    · simp
    · exact h3
    · clear h6 h5; grind
    · exact h5
    · exact h6
  | granted x h' =>
    refine ⟨ok, ?_⟩
    have hc := h.cli x
    have hg := tg x h'
    refine inv_set h x _ (by simp [h']) (by unfold Cli.start; split <;> rfl) (by unfold Cli.start; split <;> rfl) ?_
    unfold Cli.start
    obtain ⟨a1, a2, a3, a4, a5, a6⟩ := hc
    split
    · exact ⟨by simp, by simp, a3, a4, by simp, by simp⟩
    · refine ⟨by simp, fun _ => ?_, a3, a4, ?_, ?_⟩
      · have := (a1 h').1; dsimp only; omega
      · simp [(a1 h').2]
      · simp [(a1 h').2]
  | ungranted x h' =>
    refine ⟨ok, inv_set h x _ (by simp) rfl rfl ?_⟩
    obtain ⟨a1, a2, a3, a4, a5, a6⟩ := h.cli x
    exact ⟨by simp, by simp, a3, a4, by simp, by simp⟩
  | send x h' hi hb =>
    refine ⟨ok, inv_set h x _ (by simp [h']) rfl rfl ?_⟩
    obtain ⟨a1, a2, a3, a4, a5, a6⟩ := h.cli x
    have := tr x h' hi
    exact ⟨by simp [Cli.send, h'], a2, by simp [Cli.send], by simp [Cli.send], by simp [Cli.send]; omega, by simp [Cli.send]⟩
  | handle x t c hc ha =>
    refine ⟨_, inv_set (inv_beat h x) x _ (by simp [beat_cli]) (by simp [beat_cli]) (by simp [beat_cli]) ?_⟩
    have hb := (inv_beat h x).cli x
    simp only [beat_cli, beat_now] at hb ⊢
    obtain ⟨a1, a2, a3, a4, a5, a6⟩ := hb
    have := a4 t hc
    refine ⟨fun hp => by simp [(a1 hp).2] at hc, a2, fun t' e => ?_, by simp, by simp, fun t' k hp e => ?_⟩
    · simp only [Call.answered.injEq] at e
      unfold answers at ha
      split at ha
      · rename_i ho; simp only [ho, and_self, if_true]; omega
      · rw [e.1] at ha; simp at ha
    · simp only [Call.answered.injEq] at e
      have := a5 t hp hc
      dsimp only; omega
  | handleLost x hl =>
    refine ⟨_, inv_set (inv_beat h x) x _ (by simp [beat_cli]) (by simp [beat_cli]) (by simp [beat_cli]) ?_⟩
    have hb := (inv_beat h x).cli x
    simp only [beat_cli, beat_now] at hb ⊢
    obtain ⟨a1, a2, a3, a4, a5, a6⟩ := hb
    exact ⟨a1, a2, a3, a4, a5, a6⟩
  | fail x h' hc =>
    refine ⟨ok, inv_set h x _ (by simp [h']) rfl rfl ?_⟩
    obtain ⟨a1, a2, a3, a4, a5, a6⟩ := h.cli x
    exact ⟨by simp [Cli.fail, h'], a2, by simp [Cli.fail], by simp [Cli.fail], by simp [Cli.fail], by simp [Cli.fail]⟩
  | receive x t c h' hc =>
    refine ⟨ok, inv_set h x _ (by simp [h']) (by cases c <;> rfl) (by cases c <;> rfl) ?_⟩
    obtain ⟨a1, a2, a3, a4, a5, a6⟩ := h.cli x
    have := ta x t c h' hc
    cases c with
    | ok =>
      have := a3 t hc
      refine ⟨by simp [Cli.receive, h'], fun _ => ?_, by simp [Cli.receive], by simp [Cli.receive], by simp [Cli.receive], by simp [Cli.receive]⟩
      simp only [Cli.receive]; omega
    | refused => constructor <;> simp [Cli.receive]
    | other => exact ⟨by simp [Cli.receive, h'], a2, by simp [Cli.receive], by simp [Cli.receive], by simp [Cli.receive], by simp [Cli.receive]⟩
  | timeout x h' hi ht =>
    refine ⟨ok, inv_set h x _ (by simp) rfl rfl ?_⟩
    obtain ⟨a1, a2, a3, a4, a5, a6⟩ := h.cli x
    exact ⟨by simp, by simp, a3, a4, by simp, by simp⟩
  | release x h' =>
    refine ⟨ok, inv_set h x _ (by simp) rfl rfl ?_⟩
    obtain ⟨a1, a2, a3, a4, a5, a6⟩ := h.cli x
    exact ⟨by simp, by simp, a3, a4, by simp, by simp⟩
  | released x h' hd =>
    obtain ⟨h1, h2, h3, h4, h5, h6⟩ := h
    refine ⟨ok, ?_⟩
    constructor <;> dsimp only
    · exact h1
    · simp
    · exact h3
    · clear h6 h5; grind
    · exact h5
    · exact h6

theorem timely_init (D R E : Nat) : Timely D R E init := by
  refine ⟨?_, rfl⟩
  intro x hx; simp [init] at hx

theorem timely_inv {D R E : Nat} {s : St} (h : ReachWith (Timely D R E) s) : Timely D R E s ∧ ∃ ok, Inv D R E ok s := by
  induction h with
  | init => exact ⟨timely_init D R E, _, inv_init D R E⟩
  | step _ hs ht ih => exact ⟨ht, inv_step ih.2.choose_spec ih.1 hs⟩

theorem ReachWith.mono {P Q : St → Prop} (hPQ : ∀ s, P s → Q s) {s : St} (h : ReachWith P s) : ReachWith Q s := by
  induction h with
  | init => exact .init
  | step _ hs hp ih => exact .step ih hs (hPQ _ hp)

theorem CliPrompt.mono {D R E D' R' E' now : Nat} {c : Cli} (hD : D ≤ D') (hR : R ≤ R') (hE : E ≤ E')
    (h : CliPrompt D R E now c) : CliPrompt D' R' E' now c := by
  unfold CliPrompt at *
  split <;> simp_all <;> omega

theorem Timely.mono {D R E D' R' E' : Nat} {s : St} (hD : D ≤ D') (hR : R ≤ R') (hE : E ≤ E') (h : Timely D R E s) :
    Timely D' R' E' s := ⟨fun x hx => (h.1 x hx).mono hD hR hE, h.2⟩

/-! Heartbeats that get through. -/

/-- The lock is safe for a lock object: the server has not lost it and neither side can lose it before the next heartbeat. -/
def Safe (D R E deadline : Nat) (c : Cli) : Prop :=
  (c.phase = .pending → deadline = c.granted + c.timeout ∧ c.call = .idle ∧ c.stale = false) ∧
  (c.phase = .holding → c.stale = false ∧ 0 < period c.timeout ∧
    (c.call = .idle → c.beat + E + R < deadline ∧ c.beat + E + R < c.dead) ∧
    (∀ t, c.call = .sent t → t + R < deadline ∧ t + R < c.dead ∧ c.beat ≤ t + period c.timeout) ∧
    (∀ k t, c.call = .answered k t → k = .ok ∧ t + c.timeout ≤ deadline ∧ t + R < c.dead ∧ c.beat ≤ t + period c.timeout))

structure FInv (D R E : Nat) (s : St) : Prop where
  fresh : ∀ x, s.next ≤ x → (s.cli x).phase = .done
  sentAt : ∀ x t, ((s.cli x).call = .sent t ∨ ∃ k, (s.cli x).call = .answered k t) → t ≤ s.now
  safe : ∀ x, D + period (s.cli x).timeout + E + R < (s.cli x).timeout →
    ((s.cli x).phase = .pending ∨ (s.cli x).phase = .holding) → s.owner = some x ∧ s.stale = false ∧ Safe D R E s.deadline (s.cli x)
  ends : ∀ x, x < s.next → D + period (s.cli x).timeout + E + R < (s.cli x).timeout → (s.cli x).phase = .done →
    (s.cli x).released = true

theorem finv_init (D R E : Nat) : FInv D R E init := by
  constructor <;> simp [init, noCli]

theorem finv_set {D R E : Nat} {s : St} (h : FInv D R E s) (x : Nat) (c : Cli)
    (hf : s.next ≤ x → c.phase = .done) (hs : ∀ t, (c.call = .sent t ∨ ∃ k, c.call = .answered k t) → t ≤ s.now)
    (hc : D + period c.timeout + E + R < c.timeout → (c.phase = .pending ∨ c.phase = .holding) →
      s.owner = some x ∧ s.stale = false ∧ Safe D R E s.deadline c)
    (he : x < s.next → D + period c.timeout + E + R < c.timeout → c.phase = .done → c.released = true) :
    FInv D R E (s.set x c) := by
  obtain ⟨h1, h2, h3, h9⟩ := h
  constructor <;> dsimp only [St.set] <;> intro y
  · by_cases hy : y = x
    · subst hy; simpa using hf
    · simpa [hy] using h1 y
  · by_cases hy : y = x
    · subst hy; simpa using hs
    · simpa [hy] using h2 y
  · by_cases hy : y = x
    · subst hy; simpa using hc
    · simpa [hy] using h3 y
  · by_cases hy : y = x
    · subst hy; simpa using he
    · simpa [hy] using h9 y

theorem finv_step {D R E : Nat} {s s' : St} (h : FInv D R E s) (ht : Flowing D R E s) (hs : Step s s') (ht' : Flowing D R E s') :
    FInv D R E s' := by
  obtain ⟨h1, h2, h3, h9⟩ := id h
  have hlt : ∀ x, (s.cli x).phase ≠ .done → x < s.next := fun x hx =>
    Classical.byContradiction fun hn => hx (h1 x (by omega))
  cases hs with
  | wait d =>
    exact ⟨h1, fun x t e => by have := h2 x t e; simp only at *; omega, h3, h9⟩
  | claim timeout h' hp =>
    constructor <;> dsimp only [St.claim] <;> intro y
    · intro hy
      rw [if_neg (by omega)]; exact h1 y (by omega)
    · by_cases hy : y = s.next
      · simp [hy]
      · simpa [hy] using h2 y
    · by_cases hy : y = s.next
      · simp [hy, Safe]
      · simp only [hy, if_false]
        intro a b; have := (h3 y a b).1; rw [h'] at this; cases this
    · by_cases hy : y = s.next
      · simp [hy]
      · simp only [hy, if_false]
        intro hlt; exact h9 y (by omega)
  | expire x h' hx =>
    refine ⟨h1, h2, fun y (a : D + period (s.cli y).timeout + E + R < (s.cli y).timeout)
      (b : (s.cli y).phase = .pending ∨ (s.cli y).phase = .holding) => ?_, h9⟩
    obtain ⟨c1, c2, c3⟩ := h3 y a b
    exfalso
    rw [c2] at hx
    have hf := ht y (hlt y (by rcases b with b | b <;> simp [b]))
    simp only [CliFlowing] at hf
    rcases b with b | b
    · obtain ⟨d1, d2, d3⟩ := c3.1 b
      simp only [b] at hf
      rcases hx with hx | hx
      · cases hx
      · omega
    · obtain ⟨e1, e2, e3, e4, e5⟩ := c3.2 b
      simp only [b] at hf
      rcases hx with hx | hx
      · cases hx
      · cases hcl : (s.cli y).call with
        | idle => rw [hcl] at hf; have := e3 hcl; simp at hf; omega
        | sent t => rw [hcl] at hf; have := e4 t hcl; simp at hf; omega
        | answered k t =>
          rw [hcl] at hf; have := e5 k t hcl; simp at hf
          have := this.2.1; omega
  | granted x h' =>
    have hx := hlt x (by simp [h'])
    have hf := ht x hx
    simp only [CliFlowing, h'] at hf
    refine finv_set h x _ (fun hn => by omega) ?_ ?_ (by unfold Cli.start; split <;> simp)
    · unfold Cli.start; split <;> exact h2 x
    · unfold Cli.start
      split
      · simp
      · rename_i hp
        intro (a : D + period (s.cli x).timeout + E + R < (s.cli x).timeout) _
        obtain ⟨c1, c2, c3⟩ := h3 x a (.inl h')
        obtain ⟨d1, d2, d3⟩ := c3.1 h'
        refine ⟨c1, c2, by simp, fun _ => ⟨d3, Nat.pos_of_ne_zero hp, fun _ => ?_, by simp [d2], by simp [d2]⟩⟩
        exact ⟨show s.now + period (s.cli x).timeout + E + R < s.deadline by omega,
          show s.now + period (s.cli x).timeout + E + R < s.now + (s.cli x).timeout by omega⟩
  | ungranted x h' =>
    exact finv_set h x _ (fun _ => rfl) (h2 x) (by simp) (fun _ _ _ => rfl)
  | send x h' hi hb =>
    have hx := hlt x (by simp [h'])
    have hf := ht x hx
    simp only [CliFlowing, h', hi] at hf
    refine finv_set h x _ (fun hn => by omega) (by simp [Cli.send]) ?_ (by simp [Cli.send, h'])
    intro a _
    obtain ⟨c1, c2, c3⟩ := h3 x a (.inr h')
    obtain ⟨e1, e2, e3, e4, e5⟩ := c3.2 h'
    have := e3 hi
    refine ⟨c1, c2, by simp [Cli.send, h'], fun _ => ⟨e1, e2, by simp [Cli.send], ?_, by simp [Cli.send]⟩⟩
    intro t e
    simp only [Cli.send, Call.sent.injEq] at e ⊢
    subst e
    have hm := Nat.mul_div_le (s.now - (s.cli x).beat) (period (s.cli x).timeout)
    refine ⟨by omega, by omega, ?_⟩
    rw [Nat.mul_add]; omega
  | handle x t c hc ha =>
    have hb : FInv D R E (s.beat x) ∧ ∀ (k : Code), answers s x k → ∀ t, (s.cli x).call = .sent t →
        D + period (s.cli x).timeout + E + R < (s.cli x).timeout → (s.cli x).phase = .holding →
        s.owner = some x ∧ (s.beat x).stale = false ∧ k = .ok ∧ t + (s.cli x).timeout ≤ (s.beat x).deadline ∧
          (s.beat x).owner = some x := by
      by_cases ho : s.owner = some x
      · unfold St.beat; rw [if_pos ho]; unfold St.renew
        refine ⟨⟨h1, h2, ?_, h9⟩, ?_⟩
        · intro y a b
          obtain ⟨c1, c2, c3⟩ := h3 y a b
          have hyx : y = x := by rw [ho] at c1; cases c1; rfl
          subst hyx
          simp only at a b
          have hf := ht y (hlt y (by rcases b with b | b <;> simp [b]))
          simp only [CliFlowing] at hf
          rcases b with b | b
          · obtain ⟨d1, d2, d3⟩ := c3.1 b
            rw [d2] at hc; cases hc
          · obtain ⟨e1, e2, e3, e4, e5⟩ := c3.2 b
            have := e4 t hc
            have h2' := h2 y t (.inl hc)
            rw [b, hc] at hf; simp only at hf
            refine ⟨ho, ?_, by simp [b], fun _ => ⟨e1, e2, ?_, ?_, ?_⟩⟩
            · simp only [c2, Bool.false_or, decide_eq_false_iff_not]; omega
            · simp [hc]
            · intro t' e; simp only at e; rw [hc] at e; cases e; simp only; omega
            · simp [hc]
        · intro k hk t' ht' a b
          obtain ⟨c1, c2, c3⟩ := h3 x a (.inr b)
          obtain ⟨e1, e2, e3, e4, e5⟩ := c3.2 b
          have := e4 t' ht'
          have h2' := h2 x t' (.inl ht')
          have hf := ht x (hlt x (by simp [b]))
          simp only [CliFlowing, b, ht'] at hf
          refine ⟨ho, ?_, ?_, ?_, ho⟩
          · simp only [c2, Bool.false_or, decide_eq_false_iff_not]; omega
          · unfold answers at hk; rwa [if_pos ho] at hk
          · simp only; omega
      · unfold St.beat; rw [if_neg ho]
        refine ⟨h, fun k _ t _ a b => ?_⟩
        exact absurd (h3 x a (.inr b)).1 ho
    refine finv_set hb.1 x _ (fun hn => ?_) ?_ ?_ ?_
    · have : (s.beat x).next = s.next := by unfold St.beat; split <;> rfl
      rw [this] at hn; exact h1 x hn
    · intro t' e
      simp only [reduceCtorEq, Call.answered.injEq, false_or] at e
      obtain ⟨k, _, e⟩ := e
      rw [beat_now, ← e]; exact h2 x t (.inl hc)
    · intro a b
      simp only at a b
      rcases b with b | b
      · obtain ⟨c1, c2, c3⟩ := h3 x a (.inl b)
        rw [(c3.1 b).2.1] at hc; cases hc
      · obtain ⟨g1, g2, g3, g4, g5⟩ := hb.2 c ha t hc a b
        obtain ⟨c1, c2, c3⟩ := h3 x a (.inr b)
        obtain ⟨e1, e2, e3, e4, e5⟩ := c3.2 b
        have := e4 t hc
        refine ⟨g5, g2, by simp [b], fun _ => ⟨e1, e2, by simp, by simp, ?_⟩⟩
        intro k t' e
        simp only [Call.answered.injEq] at e
        obtain ⟨e1, e2⟩ := e
        subst e1 e2
        exact ⟨g3, g4, this.2.1, this.2.2⟩
    · have : (s.beat x).next = s.next := by unfold St.beat; split <;> rfl
      rw [this]; exact h9 x
  | handleLost x hl =>
    by_cases hx : x < s.next
    · have := (ht x hx).1; omega
    · have hd := h1 x (by omega)
      have hnx : ∀ y, (s.cli y).phase = .pending ∨ (s.cli y).phase = .holding → y ≠ x := by
        intro y hy e; subst e; rw [hd] at hy; simp at hy
      refine finv_set ?_ x _ (fun _ => hd) (by rw [beat_now]; exact h2 x) (by simp [hd]) ?_
      · by_cases ho : s.owner = some x
        · unfold St.beat; rw [if_pos ho]
          refine ⟨h1, h2, fun y a b => ?_, h9⟩
          have := (h3 y a b).1
          rw [ho] at this
          exact absurd (Option.some.inj this).symm (hnx y b)
        · unfold St.beat; rw [if_neg ho]; exact h
      · have : (s.beat x).next = s.next := by unfold St.beat; split <;> rfl
        rw [this]; intro hn; exact absurd hn hx
  | fail x h' hc =>
    have hx := hlt x (by simp [h'])
    have := (ht' x (by simpa [St.set] using hx)).1
    simp [St.set, Cli.fail] at this
  | receive x t c h' hc =>
    have hx := hlt x (by simp [h'])
    have hf := ht x hx
    simp only [CliFlowing, h', hc] at hf
    refine finv_set h x _ (fun hn => by omega) (by cases c <;> simp [Cli.receive]) ?_ ?_
    rotate_left
    · intro _ a
      have htm : ((s.cli x).receive c s.now).timeout = (s.cli x).timeout := by cases c <;> rfl
      rw [htm] at a
      have f1 := (((h3 x a (.inr h')).2.2.2 h').2.2.2.2 c t hc).1
      subst f1
      simp [Cli.receive, h']
    intro a b
    have htm : ((s.cli x).receive c s.now).timeout = (s.cli x).timeout := by cases c <;> rfl
    rw [htm] at a
    obtain ⟨c1, c2, c3⟩ := h3 x a (.inr h')
    obtain ⟨e1, e2, e3, e4, e5⟩ := c3.2 h'
    obtain ⟨f1, f2, f3, f4⟩ := e5 c t hc
    subst f1
    refine ⟨c1, c2, by simp [Cli.receive, h'], fun _ => ⟨?_, e2, fun _ => ?_, by simp [Cli.receive], by simp [Cli.receive]⟩⟩
    · simp only [Cli.receive, e1, Bool.false_or, decide_eq_false_iff_not]; omega
    · have := h2 x t (.inr ⟨_, hc⟩)
      simp only [Cli.receive]; omega
  | timeout x h' hi hd =>
    refine finv_set h x _ (fun _ => rfl) (h2 x) (by simp) ?_
    intro hx (a : D + period (s.cli x).timeout + E + R < (s.cli x).timeout) _
    exfalso
    obtain ⟨c1, c2, c3⟩ := h3 x a (.inr h')
    obtain ⟨e1, e2, e3, e4, e5⟩ := c3.2 h'
    have := e3 hi
    have hf := ht x hx
    simp only [CliFlowing, h', hi] at hf
    rcases hd with hd | hd
    · rw [e1] at hd; cases hd
    · omega
  | release x h' => exact finv_set h x _ (fun _ => rfl) (h2 x) (by simp) (fun _ _ _ => rfl)
  | released x h' hd =>
    refine ⟨h1, h2, fun y a b => ?_, h9⟩
    have := (h3 y a b).1
    rw [h'] at this; cases this
    rw [hd] at b; simp at b

theorem flowing_init (D R E : Nat) : Flowing D R E init := by
  intro x hx; simp [init] at hx

theorem flowing_inv {D R E : Nat} {s : St} (h : ReachWith (Flowing D R E) s) : Flowing D R E s ∧ FInv D R E s := by
  induction h with
  | init => exact ⟨flowing_init D R E, finv_init D R E⟩
  | step _ hs ht ih => exact ⟨ht, finv_step ih.2 ih.1 hs ht⟩

/-! Concrete runs: the same actions as a function, to compute examples. -/

inductive Act
  | wait (d : Nat)
  | claim (timeout : Nat)
  | expire
  | granted (x : Nat)
  | send (x : Nat)
  | handle (x : Nat) (c : Code)
  | fail (x : Nat)
  | receive (x : Nat)
  | timeout (x : Nat)
  | release (x : Nat)
  | released

instance (s : St) (x : Nat) (c : Code) : Decidable (answers s x c) := by unfold answers; infer_instance

instance (D R E now : Nat) (c : Cli) : Decidable (CliPrompt D R E now c) := by unfold CliPrompt; split <;> infer_instance

instance (D R E : Nat) (s : St) : Decidable (Prompt D R E s) := by unfold Prompt; infer_instance

instance (D R E now : Nat) (c : Cli) : Decidable (CliFlowing D R E now c) := by unfold CliFlowing; split <;> infer_instance

instance (D R E : Nat) (s : St) : Decidable (Flowing D R E s) := by unfold Flowing; infer_instance

instance (D R E : Nat) (s : St) : Decidable (Timely D R E s) := by unfold Timely; infer_instance

def exec1 (s : St) : Act → Option St
  | .wait d => some { s with now := s.now + d }
  | .claim T => if s.owner = none ∧ 0 < T then some (s.claim T) else none
  | .expire => if s.owner ≠ none ∧ (s.stale = true ∨ s.deadline ≤ s.now) then some { s with owner := none } else none
  | .granted x => if (s.cli x).phase = .pending then some (s.set x ((s.cli x).start s.now)) else none
  | .send x => if (s.cli x).phase = .holding ∧ (s.cli x).call = .idle ∧ (s.cli x).beat ≤ s.now then
      some (s.set x ((s.cli x).send s.now)) else none
  | .handle x c => match (s.cli x).call with
    | .sent t => if answers s x c then some ((s.beat x).set x { s.cli x with call := .answered c t }) else none
    | _ => none
  | .fail x => if (s.cli x).phase = .holding ∧ (s.cli x).call ≠ .idle then some (s.set x (s.cli x).fail) else none
  | .receive x => match (s.cli x).call with
    | .answered c _ => if (s.cli x).phase = .holding then some (s.set x ((s.cli x).receive c s.now)) else none
    | _ => none
  | .timeout x => if (s.cli x).phase = .holding ∧ (s.cli x).call = .idle ∧ ((s.cli x).stale = true ∨ (s.cli x).dead ≤ s.now) then
      some (s.set x { s.cli x with phase := .done }) else none
  | .release x => if (s.cli x).phase = .holding then some (s.set x { s.cli x with phase := .done, released := true }) else none
  | .released => match s.owner with
    | some x => if (s.cli x).phase = .done then some { s with owner := none } else none
    | none => none

def exec (P : St → Prop) [DecidablePred P] (s : St) : List Act → Option St
  | [] => some s
  | a :: as => match exec1 s a with
    | none => none
    | some s' => if P s' then exec P s' as else none

theorem exec1_sound {s s' : St} {a : Act} (h : exec1 s a = some s') : Step s s' := by
  cases a <;> simp only [exec1] at h
  case wait d => cases h; exact .wait _ _
  case claim T => split at h <;> rename_i hc <;> cases h; exact .claim _ _ hc.1 hc.2
  case expire =>
    split at h <;> rename_i hc <;> cases h
    obtain ⟨x, hx⟩ := Option.ne_none_iff_exists'.mp hc.1
    exact .expire _ x hx hc.2
  case granted x => split at h <;> rename_i hc <;> cases h; exact .granted _ x hc
  case send x => split at h <;> rename_i hc <;> cases h; exact .send _ x hc.1 hc.2.1 hc.2.2
  case handle x c =>
    split at h
    · rename_i t ht
      split at h <;> rename_i hc <;> cases h
      exact .handle _ x t c ht hc
    · cases h
  case fail x => split at h <;> rename_i hc <;> cases h; exact .fail _ x hc.1 hc.2
  case receive x =>
    split at h
    · rename_i c t ht
      split at h <;> rename_i hc <;> cases h
      exact .receive _ x t c hc ht
    · cases h
  case timeout x => split at h <;> rename_i hc <;> cases h; exact .timeout _ x hc.1 hc.2.1 hc.2.2
  case release x => split at h <;> rename_i hc <;> cases h; exact .release _ x hc
  case released =>
    split at h
    · rename_i x hx
      split at h <;> rename_i hc <;> cases h
      exact .released _ x hx hc
    · cases h

theorem exec_sound {P : St → Prop} [DecidablePred P] {s s' : St} {as : List Act} (h : exec P s as = some s') (hs : ReachWith P s) :
    ReachWith P s' := by
  induction as generalizing s with
  | nil => cases h; exact hs
  | cons a as ih =>
    simp only [exec] at h
    cases h1 : exec1 s a with
    | none => rw [h1] at h; cases h
    | some s1 =>
      rw [h1] at h
      simp only at h
      by_cases hp : P s1
      · rw [if_pos hp] at h
        exact ih h (.step hs (exec1_sound h1) hp)
      · rw [if_neg hp] at h; cases h

/-- A computed run ends in a reachable state with the checked property. -/
theorem exec_reach {P : St → Prop} [DecidablePred P] (as : List Act) (f : St → Bool)
    (h : (exec P init as).any f = true) : ∃ s, ReachWith P s ∧ f s = true := by
  cases he : exec P init as with
  | none => rw [he] at h; simp at h
  | some s => rw [he] at h; exact ⟨s, exec_sound he .init, by simpa using h⟩

end Willow.Lease
