import Verif.Proofs.DestroySync
/-
Property C26: DestroySync (pkg/async/destroy.go).  `Reach n s`: `s` is reachable with `n` threads, for any interleaving.
-/
namespace Willow.Props
open DestroySync

/-- C26.  While a destroy is in progress (WaitDestroy returned true, ClearDestroy not called) no guarded operation runs. -/
theorem C26_destroy_excludes_guarded (n : Nat) (s : DestroySync.St) (h : DestroySync.Reach n s) (hd : PC.destroying ∈ s.threads) :
    PC.guarded ∉ s.threads := by
  have hI := reach_inv h
  have := hI.excl (hI.held.2 (List.count_pos_iff.2 hd))
  rw [hI.readers] at this
  exact List.count_eq_zero.1 this

/-- C26.  At most one thread is destroying; more: at most one is anywhere between deciding to destroy and finishing ClearDestroy. -/
theorem C26_one_destroyer (n : Nat) (s : DestroySync.St) (h : DestroySync.Reach n s) :
    s.threads.countP (fun p => p = .won ∨ p = .waiting ∨ p = .destroying ∨ p = .unlocked) ≤ 1 ∧ s.threads.count .destroying ≤ 1 := by
  have hI := reach_inv h
  have hb : busy s.threads ≤ 1 := by rw [hI.flag]; split <;> omega
  have hc : ∀ l : List PC, l.countP (fun p => p = .won ∨ p = .waiting ∨ p = .destroying ∨ p = .unlocked) = busy l := by
    intro l
    induction l with
    | nil => rfl
    | cons x l ih => cases x <;> simp_all [busy, List.countP_cons, List.count_cons] <;> omega
  rw [hc]
  refine ⟨hb, ?_⟩
  unfold busy at hb; omega

/-- C26.  GuardOperation answers true exactly when nobody is destroying or waiting to destroy; in particular it succeeds again as
soon as ClearDestroy has unlocked, and it fails while WaitDestroy waits, so that the wait can end. -/
theorem C26_guard_answer (n : Nat) (s s' : DestroySync.St) (h : DestroySync.Reach n s) (ok : Bool) (hs : DestroySync.Step s (.guard ok) s') :
    ok = true ↔ PC.destroying ∉ s.threads ∧ PC.waiting ∉ s.threads := by
  have hI := reach_inv h
  have h1 : s.rw.held = false ↔ PC.destroying ∉ s.threads := by
    rw [← Bool.not_eq_true, hI.held, List.count_pos_iff]
  have h2 : s.rw.pending = false ↔ PC.waiting ∉ s.threads := by
    rw [← Bool.not_eq_true, hI.pending, List.count_pos_iff]
  rw [← h1, ← h2]
  cases hs with
  | guardOk hp hh => simp [hp, hh]
  | guardFail ho => simp; rcases ho with ho | ho <;> simp [ho]

/-- C26.  Every idle thread can always call GuardOperation and WaitDestroy, and neither blocks the others: both have an answer or a
step in every reachable state. -/
theorem C26_calls_enabled (n : Nat) (s : DestroySync.St) (_h : DestroySync.Reach n s) (hi : PC.idle ∈ s.threads) :
    (∃ ok s', DestroySync.Step s (.guard ok) s') ∧ (∃ e s', DestroySync.Step s e s' ∧ (e = .wait false ∨ s'.threads.count .won = s.threads.count .won + 1)) := by
  obtain ⟨rw, d, ts⟩ := s
  obtain ⟨a, b, e⟩ := List.append_of_mem hi
  simp only at e
  subst e
  constructor
  · by_cases hp : rw.pending = false ∧ rw.held = false
    · exact ⟨_, _, .guardOk hp.1 hp.2⟩
    · exact ⟨_, _, .guardFail (by cases h1 : rw.pending <;> cases h2 : rw.held <;> simp_all)⟩
  · cases d with
    | true => exact ⟨_, _, .casLose, .inl rfl⟩
    | false => exact ⟨_, _, .casWin, .inr (by simp [List.count_append]; omega)⟩

/-- C26.  WaitDestroy answers false exactly when another thread is between its own WaitDestroy and the end of its ClearDestroy. -/
theorem C26_wait_refused (n : Nat) (s : DestroySync.St) (h : DestroySync.Reach n s) (hi : PC.idle ∈ s.threads) :
    (∃ s', DestroySync.Step s (.wait false) s') ↔
      ∃ p ∈ s.threads, p = .won ∨ p = .waiting ∨ p = .destroying ∨ p = .unlocked := by
  have hI := reach_inv h
  have hb : s.destroying = true ↔ ∃ p ∈ s.threads, p = .won ∨ p = .waiting ∨ p = .destroying ∨ p = .unlocked := by
    have hf := hI.flag
    constructor
    · intro hd
      rw [if_pos hd] at hf
      unfold busy at hf
      have : 0 < s.threads.count .won ∨ 0 < s.threads.count .waiting ∨ 0 < s.threads.count .destroying ∨ 0 < s.threads.count .unlocked := by omega
      simp only [List.count_pos_iff] at this
      grind
    · rintro ⟨p, hp, hq⟩
      refine Classical.byContradiction fun hd => ?_
      rw [if_neg hd] at hf
      unfold busy at hf
      rcases hq with rfl | rfl | rfl | rfl <;> have := List.count_pos_iff.2 hp <;> omega
  rw [← hb]
  constructor
  · rintro ⟨s', hs⟩; cases hs; rfl
  · intro hd
    obtain ⟨rw, d, ts⟩ := s
    obtain ⟨a, b, e⟩ := List.append_of_mem hi
    simp only at e hd
    subst e hd
    exact ⟨_, .casLose⟩

/-- C26.  A waiting destroyer gets its turn: while it waits no new operation is admitted (the number of guarded operations never
grows), and once the running ones have called ClearOperation it can proceed. -/
theorem C26_destroyer_gets_in (n : Nat) (s : DestroySync.St) (h : DestroySync.Reach n s) (hw : PC.waiting ∈ s.threads) :
    (∀ e s', DestroySync.Step s e s' → s'.threads.count .guarded ≤ s.threads.count .guarded) ∧
    (PC.guarded ∈ s.threads → ∃ s', DestroySync.Step s .cleared s' ∧ s'.threads.count .guarded + 1 = s.threads.count .guarded) ∧
    (PC.guarded ∉ s.threads → ∃ s', DestroySync.Step s (.wait true) s') := by
  have hI := reach_inv h
  have hp := hI.pending.2 (List.count_pos_iff.2 hw)
  have hr := hI.readers
  obtain ⟨rw, d, ts⟩ := s
  simp only at hw hp hr
  refine ⟨?_, ?_, ?_⟩
  · intro e s' hs
    cases hs <;> simp_all [List.count_append, List.count_cons]
  · intro hg
    obtain ⟨a, b, e⟩ := List.append_of_mem hg
    simp only at e
    subst e
    exact ⟨_, .clear, by simp [List.count_append, List.count_cons]; omega⟩
  · intro hg
    obtain ⟨a, b, e⟩ := List.append_of_mem hw
    subst e
    exact ⟨_, .acquire (by rw [hr]; exact List.count_eq_zero.2 hg)⟩

/-- C26.  A destroyer is let in only when no guarded operation runs. -/
theorem C26_destroy_starts_alone (n : Nat) (s s' : DestroySync.St) (h : DestroySync.Reach n s) (hs : DestroySync.Step s (.wait true) s') :
    PC.guarded ∉ s.threads ∧ PC.destroying ∉ s.threads ∧ PC.destroying ∈ s'.threads := by
  have hI := reach_inv h
  have hI' := hI.step hs
  have h1 := C26_one_destroyer n s h
  cases hs with
  | acquire hr =>
    refine ⟨?_, ?_, by simp⟩
    · have := hI.readers; rw [show _ = 0 from hr] at this; exact List.count_eq_zero.1 this.symm
    · intro hd
      have hf := hI.flag
      have h2 := List.count_pos_iff.2 hd
      have h3 := hf
      unfold busy at h3
      simp [List.count_append, List.count_cons] at h2 h3
      split at h3 <;> omega

/-- The states of the theorems are reachable: thread 1 waits to destroy while thread 0 works, then destroys alone. -/
example : ∃ s, DestroySync.Reach 3 s ∧ s.threads = [.guarded, .waiting, .idle] := by
  have h0 := DestroySync.Reach.init (n := 3)
  have h1 := h0.step (.guardOk (a := []) (b := [.idle, .idle]) rfl rfl)
  have h2 := h1.step (.casWin (a := [.guarded]) (b := [.idle]))
  have h3 := h2.step (.announce (a := [.guarded]) (b := [.idle]) rfl rfl)
  exact ⟨_, h3, rfl⟩
example : ∃ s, DestroySync.Reach 3 s ∧ s.threads = [.idle, .destroying, .idle] := by
  have h0 := DestroySync.Reach.init (n := 3)
  have h1 := h0.step (.guardOk (a := []) (b := [.idle, .idle]) rfl rfl)
  have h2 := h1.step (.casWin (a := [.guarded]) (b := [.idle]))
  have h3 := h2.step (.announce (a := [.guarded]) (b := [.idle]) rfl rfl)
  have h4 := h3.step (.clear (a := []) (b := [.waiting, .idle]))
  have h5 := h4.step (.acquire (a := [.idle]) (b := [.idle]) rfl)
  exact ⟨_, h5, rfl⟩

end Willow.Props
