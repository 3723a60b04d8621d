import Verif.Spec.Heartbeater
namespace Willow.Heartbeater
open Willow.HeartbeaterSpec

/-- Execute has ended or is ending. -/
def over : Phase → Bool
  | .inTimeout | .inShutdown | .done => true
  | _ => false

structure Inv (c : Config) (s : St) : Prop where
  starts : s.callers.count .start + s.log.countP (fun e => e.1 == .start true) ≤ if s.started then 1 else 0
  ended : s.log.countP (fun e => ends e.1) = if over s.phase then 1 else 0
  early : (s.phase = .notRun ∨ s.phase = .waitStart) → ∀ e ∈ s.log, effective e.1 = false ∧ e.1 ≠ .tick
  run : (s.phase = .running ∨ s.phase = .inTimeout ∨ s.phase = .inShutdown) → ∃ e ∈ s.log, e.1 = .start true
  order : ∀ newer e older, s.log = newer ++ e :: older → ends e.1 = true → ∀ x ∈ newer, effective x.1 = false
  after : ∀ newer e older, s.log = newer ++ e :: older → e.1 = .timeout → ∃ x ∈ older, x.1 = .start true
  times : ∀ e ∈ s.log, e.2 ≤ s.now
  next : s.phase = .running → ∀ e ∈ s.log, renews e.1 = true → e.2 + c.timeout.toNat ≤ s.next
  pend : s.phase = .running → s.buf = true → ∃ newer t older, s.log = newer ++ (Ev.tick, t) :: older ∧
    ∀ e ∈ older, renews e.1 = true → e.2 + c.timeout.toNat ≤ t
  fired : ∀ newer t older, s.log = newer ++ (Ev.timeout, t) :: older → ∃ newer' t' older', older = newer' ++ (Ev.tick, t') :: older' ∧
    ∀ e ∈ older', renews e.1 = true → e.2 + c.timeout.toNat ≤ t'
  crash : s.phase = .crashed → c.timeout ≤ 0
  pos : s.phase = .running → 0 < c.timeout

theorem inv_init (c : Config) (n : Nat) : Inv c (init n) := by
  constructor <;> simp [init, over, List.count_replicate]

theorem cons_split {α : Type} {a e : α} {l newer older : List α} (h : a :: l = newer ++ e :: older) :
    (newer = [] ∧ a = e ∧ l = older) ∨ ∃ newer', newer = a :: newer' ∧ l = newer' ++ e :: older := by
  cases newer with
  | nil => simp at h; exact .inl ⟨rfl, h.1, h.2⟩
  | cons b bs => simp at h; obtain ⟨rfl, h⟩ := h; exact .inr ⟨bs, rfl, h⟩

/-- Steps that change neither the log nor the phase. -/
theorem Inv.quiet {c : Config} {s s' : St} (h : Inv c s) (hl : s'.log = s.log) (hp : s'.phase = s.phase) (hn : s.now ≤ s'.now)
    (hx : s'.next = s.next) (hb : s'.buf = s.buf)
    (hs : s'.callers.count .start + s.log.countP (fun e => e.1 == .start true) ≤ if s'.started then 1 else 0) : Inv c s' := by
  obtain ⟨h1, h2, h3, h4, h5, h6, h7, h8, h9, h10, h11, h12⟩ := h
  constructor <;> (try rw [hl]) <;> (try rw [hp]) <;> (try rw [hx]) <;> (try rw [hb]) <;> (try assumption)
  intro e he; have := h7 e he; omega

/-- Steps that append one event. -/
theorem Inv.event {c : Config} {s s' : St} {ev : Ev} (h : Inv c s) (hl : s'.log = (ev, s.now) :: s.log) (hn : s'.now = s.now)
    (hstart : s'.callers.count .start + (if ev = .start true then 1 else 0) ≤ s.callers.count .start) (hst : s'.started = s.started)
    (hover : (if over s'.phase then 1 else 0) = (if over s.phase then 1 else 0) + if ends ev then 1 else 0)
    (hearly : (s'.phase = .notRun ∨ s'.phase = .waitStart) → (s.phase = .notRun ∨ s.phase = .waitStart) ∧ effective ev = false ∧ ev ≠ .tick)
    (hrun : (s'.phase = .running ∨ s'.phase = .inTimeout ∨ s'.phase = .inShutdown) →
      (s.phase = .running ∨ s.phase = .inTimeout ∨ s.phase = .inShutdown) ∨ ev = .start true)
    (heff : effective ev = true → over s.phase = false)
    (hto : ev = .timeout → s.phase = .running ∧ s.buf = true)
    (hnext : s'.phase = .running → (∀ e ∈ s.log, renews e.1 = true → e.2 + c.timeout.toNat ≤ s'.next) ∧ (renews ev = true → s.now + c.timeout.toNat ≤ s'.next))
    (hpend : s'.phase = .running → s'.buf = true → (s.phase = .running ∧ s.buf = true) ∨ (ev = .tick ∧ ∀ e ∈ s.log, renews e.1 = true → e.2 + c.timeout.toNat ≤ s.now))
    (hcrash : s'.phase = .crashed → s.phase = .crashed ∨ c.timeout ≤ 0) (hpos : s'.phase = .running → 0 < c.timeout) : Inv c s' := by
  obtain ⟨h1, h2, h3, h4, h5, h6, h7, h8, h9, h10, h11, h12⟩ := h
  constructor
  · rw [hl, List.countP_cons, hst]; simp only [beq_iff_eq]; omega
  · rw [hl, List.countP_cons, h2, hover]
  · intro hp e he
    rw [hl] at he
    obtain ⟨q1, q2⟩ := hearly hp
    rcases List.mem_cons.1 he with rfl | he
    · exact q2
    · exact h3 q1 e he
  · intro hp
    rw [hl]
    rcases hrun hp with q | rfl
    · obtain ⟨e, he, h⟩ := h4 q; exact ⟨e, List.mem_cons_of_mem _ he, h⟩
    · exact ⟨_, List.mem_cons_self, rfl⟩
  · intro newer e older q he x hx
    rw [hl] at q
    rcases cons_split q with ⟨rfl, _, _⟩ | ⟨newer', rfl, q'⟩
    · simp at hx
    · rcases List.mem_cons.1 hx with rfl | hx
      · cases hef : effective ev with
        | false => rfl
        | true =>
          have := heff hef
          rw [this] at h2
          rw [q', List.countP_append, List.countP_cons, he] at h2
          simp at h2
      · exact h5 newer' e older q' he x hx
  · intro newer e older q he
    rw [hl] at q
    rcases cons_split q with ⟨rfl, rfl, rfl⟩ | ⟨newer', rfl, q'⟩
    · obtain ⟨e, he, h⟩ := h4 (.inl (hto he).1); exact ⟨e, he, h⟩
    · exact h6 newer' e older q' he
  · rw [hl, hn]; intro e he
    rcases List.mem_cons.1 he with rfl | he
    · exact Nat.le_refl _
    · exact h7 e he
  · intro hp e he hr
    rw [hl] at he
    obtain ⟨q1, q2⟩ := hnext hp
    rcases List.mem_cons.1 he with rfl | he
    · exact q2 hr
    · exact q1 e he hr
  · intro hp hb
    rw [hl]
    rcases hpend hp hb with ⟨q1, q2⟩ | ⟨rfl, q⟩
    · obtain ⟨newer, t, older, q3, q4⟩ := h9 q1 q2
      exact ⟨(ev, s.now) :: newer, t, older, by rw [q3]; rfl, q4⟩
    · exact ⟨[], s.now, s.log, rfl, q⟩
  · intro newer t older q
    rw [hl] at q
    rcases cons_split q with ⟨rfl, q1, rfl⟩ | ⟨newer', rfl, q'⟩
    · obtain ⟨rfl, rfl⟩ := Prod.mk.inj q1
      obtain ⟨a, b⟩ := hto rfl
      exact h9 a b
    · exact h10 newer' t older q'
  · intro hp; exact (hcrash hp).elim h11 id
  · exact hpos

theorem renews_effective {e : Ev} (h : renews e = true) : effective e = true := by
  cases e <;> first | (rename_i b; cases b <;> first | rfl | exact h) | rfl | exact h

macro "side" : tactic => `(tactic| first | rfl | ((try simp only [St.ev, over, ends, effective, renews, List.count_append, List.count_cons]) <;> grind [over, effective, ends, renews]))

set_option linter.unusedSimpArgs false in
set_option maxHeartbeats 1000000 in
theorem Inv.step {c : Config} {s s' : St} (h : Inv c s) (hs : Step c s s') : Inv c s' := by
  have h1 := h.starts
  have h8 := h.next
  have h12 := h.pos
  cases hs with
  | execute hp =>
    obtain ⟨h1, h2, h3, h4, h5, h6, h7, h8, h9, h10, h11, h12⟩ := h
    constructor <;> simp_all [over] <;> assumption
  | cancel => exact h.quiet rfl rfl (Nat.le_refl _) rfl rfl h1
  | clock => exact h.quiet rfl rfl (Nat.le_succ _) rfl rfl h1
  | tick hp hn =>
    refine h.event (ev := .tick) rfl rfl ?_ rfl ?_ ?_ ?_ ?_ ?_ ?_ ?_ ?_ ?_
    case refine_8 => intro _ _; refine .inr ⟨rfl, fun e he hr => ?_⟩; have := h8 hp e he hr; omega
    all_goals side
  | callStart hc hst =>
    refine h.quiet rfl rfl (Nat.le_refl _) rfl rfl ?_
    rw [hc, hst] at h1; simp only [List.count_append, List.count_cons] at h1 ⊢; grind
  | startAgain _ hst =>
    refine h.event (ev := .start false) (s' := s.ev (.start false)) rfl rfl ?_ rfl ?_ ?_ ?_ ?_ ?_ ?_ ?_ ?_ ?_ <;> side
  | startOk hc hp =>
    have h3 := h.early (.inr hp)
    have h3' : ∀ e ∈ s.log, renews e.1 = false := by
      intro e he; have := (h3 e he).1; cases hr : renews e.1 with | false => rfl | true => rw [renews_effective hr] at this; exact this
    unfold begin_
    by_cases ht : c.timeout ≤ 0
    · simp only [if_pos ht]
      refine h.event (ev := .start true) rfl rfl ?_ rfl ?_ ?_ ?_ ?_ ?_ ?_ ?_ ?_ ?_ <;> side
    · simp only [if_neg ht]
      refine h.event (ev := .start true) rfl rfl ?_ rfl ?_ ?_ ?_ ?_ ?_ ?_ ?_ ?_ ?_ <;> side
  | startFail hc hp =>
    refine h.event (ev := .start false) rfl rfl ?_ rfl ?_ ?_ ?_ ?_ ?_ ?_ ?_ ?_ ?_ <;> side
  | callStop hc =>
    refine h.quiet rfl rfl (Nat.le_refl _) rfl rfl ?_
    rw [hc] at h1; simp only [List.count_append, List.count_cons] at h1 ⊢; grind
  | stopOk hc hp =>
    refine h.event (ev := .stop true) rfl rfl ?_ rfl ?_ ?_ ?_ ?_ ?_ ?_ ?_ ?_ ?_ <;> side
  | stopFail hc hp =>
    refine h.event (ev := .stop false) rfl rfl ?_ rfl ?_ ?_ ?_ ?_ ?_ ?_ ?_ ?_ ?_ <;> side
  | callBeat hc =>
    refine h.quiet rfl rfl (Nat.le_refl _) rfl rfl ?_
    rw [hc] at h1; simp only [List.count_append, List.count_cons] at h1 ⊢; grind
  | beatOk hc hp =>
    have h7 := h.times
    refine h.event (ev := .beat true) rfl rfl ?_ rfl ?_ ?_ ?_ ?_ ?_ ?_ ?_ ?_ ?_ <;> side
  | beatFail hc hp =>
    refine h.event (ev := .beat false) rfl rfl ?_ rfl ?_ ?_ ?_ ?_ ?_ ?_ ?_ ?_ ?_ <;> side
  | shutdown hp hc =>
    refine h.event (ev := .shutdown) rfl rfl ?_ rfl ?_ ?_ ?_ ?_ ?_ ?_ ?_ ?_ ?_ <;> cases hh : c.hasShutdown <;> side
  | timeout hp hb =>
    refine h.event (ev := .timeout) rfl rfl ?_ rfl ?_ ?_ ?_ ?_ ?_ ?_ ?_ ?_ ?_ <;> side
  | ret hp =>
    have : over s.phase = true := by rcases hp with hp | hp <;> rw [hp] <;> rfl
    obtain ⟨h1, h2, h3, h4, h5, h6, h7, h8, h9, h10, h11, h12⟩ := h
    constructor <;> simp_all [over] <;> assumption

theorem reach_inv {c : Config} {n : Nat} {s : St} (h : Reach c n s) : Inv c s := by
  induction h with
  | init => exact inv_init c n
  | step _ hs ih => exact ih.step hs

end Willow.Heartbeater

namespace Willow.Heartbeater
open Willow.HeartbeaterSpec

theorem step_log {c : Config} {s s' : St} (hs : Step c s s') : s.now ≤ s'.now ∧ (s'.log = s.log ∨ ∃ e, s'.log = (e, s.now) :: s.log ∧
    (e = .tick → s.phase = .running)) := by
  cases hs <;> (try unfold begin_) <;> simp_all [St.ev] <;> (split <;> simp)

/-- Events are logged in time order. -/
theorem logSorted {c : Config} {n : Nat} {s : St} (h : Reach c n s) : ∀ newer e older, s.log = newer ++ e :: older → ∀ x ∈ older, x.2 ≤ e.2 := by
  induction h with
  | init => intro newer e older hl; simp [init] at hl
  | step hr hs ih =>
    rename_i s s'
    rcases (step_log hs).2 with hl | ⟨e0, hl, _⟩
    · rw [hl]; exact ih
    · rw [hl]
      intro newer e older h x hx
      rcases cons_split h with ⟨rfl, rfl, rfl⟩ | ⟨newer', rfl, q⟩
      · exact (reach_inv hr).times x hx
      · exact ih newer' e older q x hx

/-- A tick comes after a start. -/
theorem tick_after_start {c : Config} {n : Nat} {s : St} (h : Reach c n s) : ∀ newer t older, s.log = newer ++ (Ev.tick, t) :: older →
    ∃ e ∈ older, e.1 = .start true := by
  induction h with
  | init => intro newer e older hl; simp [init] at hl
  | step hr hs ih =>
    rename_i s s'
    rcases (step_log hs).2 with hl | ⟨e0, hl, ht⟩
    · rw [hl]; exact ih
    · rw [hl]
      intro newer t older h
      rcases cons_split h with ⟨rfl, q, rfl⟩ | ⟨newer', rfl, q⟩
      · obtain ⟨rfl, _⟩ := Prod.mk.inj q
        exact (reach_inv hr).run (.inl (ht rfl))
      · exact ih newer' t older q

end Willow.Heartbeater
