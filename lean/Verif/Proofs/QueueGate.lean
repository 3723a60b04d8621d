import Verif.Spec.QueueGate
/-
Proofs about concurrent requests on queues.
-/
namespace Willow.QueueGate
open Willow.GateSpec

theorem get_advance {s : St} {i j : Nat} {c d : Call} (hc : s.calls[i]? = some c) (hd : s.calls[j]? = some d) :
    (s.advance i c).calls[j]? = some (if i = j then { c with pc := c.pc + 1 } else d) := by
  have hi : i < s.calls.length := by
    apply Classical.byContradiction; intro h
    rw [List.getElem?_eq_none (by omega)] at hc; cases hc
  simp only [St.advance, List.getElem?_set]
  split
  · next e => subst e; simp [hi]
  · exact hd

theorem callback_calls {s s' : St} {i : Nat} {c : Call} (h : s.callback i c = some s') : s'.calls = (s.advance i c).calls := by
  unfold St.callback at h
  repeat' split at h
  all_goals simp only [Option.some.injEq, reduceCtorEq] at h
  all_goals subst h; rfl

theorem go_calls {s s' : St} {i : Nat} {c : Call} (h : s.go i c = some s') : s'.calls = (s.advance i c).calls := by
  unfold St.go at h
  repeat' split at h
  all_goals try simp only [Option.some.injEq, reduceCtorEq] at h
  all_goals first
    | (subst h; rfl)
    | exact callback_calls h

theorem callback_items {s s' : St} {i q : Nat} {c : Call} (h : s.callback i c = some s') : s'.items q ≤ s.items q ∨ c.kind = .enqueue q := by
  unfold St.callback at h
  split at h
  · next r hr =>
    simp only [Option.some.injEq] at h; subst h
    by_cases e : q = r
    · right; rw [hr, e]
    · left; simp [e]
  · split at h
    · simp only [Option.some.injEq] at h; subst h
      left; simp only; split <;> omega
    · split at h <;> simp only [Option.some.injEq, reduceCtorEq] at h
      subst h; left; exact Nat.le_refl _
  · simp only [Option.some.injEq] at h; subst h; left; exact Nat.le_refl _

theorem go_items {s s' : St} {i q : Nat} {c : Call} (h : s.go i c = some s') : s'.items q ≤ s.items q ∨ (c.pc = 3 ∧ c.kind = .enqueue q) := by
  unfold St.go at h
  split at h
  · left
    repeat' split at h
    all_goals simp only [Option.some.injEq, reduceCtorEq] at h
    all_goals (subst h; exact Nat.le_refl _)
  · split at h
    · split at h <;> simp only [Option.some.injEq, reduceCtorEq] at h
      subst h; exact .inl (Nat.le_refl _)
    · split at h <;> simp only [Option.some.injEq, reduceCtorEq] at h
      subst h; exact .inl (Nat.le_refl _)
    · simp only [Option.some.injEq] at h; subst h; exact .inl (Nat.le_refl _)
    · next hpc => exact (callback_items h).imp id (fun k => ⟨hpc, k⟩)
    · simp only [Option.some.injEq] at h; subst h; exact .inl (Nat.le_refl _)
    · cases h

/-- A consumer waits in the root, a writer has the tree lock and waits for the root, and no item for the consumer's queue is in the tree
or on its way. -/
structure Stuck (s : St) (i j q : Nat) : Prop where
  cons : ∃ c, s.calls[i]? = some c ∧ Waits c q
  writer : ∃ c, s.calls[j]? = some c ∧ c.kind = .write ∧ (c.pc = 2 ∨ c.pc = 3)
  empty : s.items q = 0
  quiet : ∀ c ∈ s.calls, ¬ Underway c q

theorem Stuck.blocked {s : St} {i j q : Nat} (h : Stuck s i j q) : s.canReadTree = false ∧ s.canOwnRoot = false := by
  obtain ⟨c, hc, hw⟩ := h.cons
  obtain ⟨d, hd, hk, hp⟩ := h.writer
  constructor
  · simp only [St.canReadTree, List.all_eq_false]
    refine ⟨d, List.mem_of_getElem? hd, ?_⟩
    simp only [Call.ownsTree, Call.writer, hk, decide_true, Bool.true_and]
    rcases hp with hp | hp <;> simp [hp]
  · simp only [St.canOwnRoot, List.all_eq_false]
    refine ⟨c, List.mem_of_getElem? hc, ?_⟩
    simp [Call.readsRoot, Call.writer, hw.1, hw.2.1]

theorem Stuck.step {s s' : St} {i j q : Nat} (h : Stuck s i j q) {l : Label} (hl : l ≠ .close i) (hs : step s l = some s') : Stuck s' i j q := by
  obtain ⟨b1, b2⟩ := h.blocked
  obtain ⟨c, hc, hw⟩ := h.cons
  obtain ⟨d, hd, hk, hp⟩ := h.writer
  cases l with
  | arrive k =>
    simp only [QueueGate.step, Option.some.injEq] at hs; subst hs
    have grow : ∀ {n : Nat} {x : Call}, s.calls[n]? = some x → (s.calls ++ [⟨k, 0, false⟩])[n]? = some x := by
      intro n x hx
      rw [List.getElem?_append_left ?_]
      · exact hx
      · apply Classical.byContradiction; intro h'
        rw [List.getElem?_eq_none (by omega)] at hx; cases hx
    refine ⟨⟨c, grow hc, hw⟩, ⟨d, grow hd, hk, hp⟩, h.empty, ?_⟩
    intro x hx
    rcases List.mem_append.1 hx with hx | hx
    · exact h.quiet x hx
    · simp at hx; subst hx; intro hu; have := hu.2.1; simp at this
  | close n =>
    simp only [QueueGate.step] at hs
    split at hs
    · next x hx =>
      simp only [Option.some.injEq] at hs; subst hs
      have hni : n ≠ i := fun e => hl (by rw [e])
      refine ⟨⟨c, ?_, hw⟩, ?_, h.empty, ?_⟩
      · simp only [List.getElem?_set, hni, if_false]; exact hc
      · by_cases e : n = j
        · subst e; rw [hx] at hd; cases hd
          refine ⟨{ d with closed := true }, ?_, hk, hp⟩
          have : n < s.calls.length := by
            apply Classical.byContradiction; intro h'
            rw [List.getElem?_eq_none (by omega)] at hx; cases hx
          simp [List.getElem?_set, this]
        · exact ⟨d, by simp only [List.getElem?_set, e, if_false]; exact hd, hk, hp⟩
      · intro y hy
        rcases List.mem_or_eq_of_mem_set hy with hy | rfl
        · exact h.quiet y hy
        · exact fun hu => h.quiet x (List.mem_of_getElem? hx) hu
    · cases hs
  | go n =>
    simp only [QueueGate.step] at hs
    split at hs
    · next x hx =>
      have hcalls := go_calls hs
      have hne : n ≠ i := by
        rintro rfl
        rw [hc] at hx; cases hx
        simp [St.go, Call.writer, hw.1, hw.2.1, St.callback, h.empty, hw.2.2] at hs
      have hxq : ¬ Underway x q := h.quiet x (List.mem_of_getElem? hx)
      refine ⟨⟨c, ?_, hw⟩, ?_, ?_, ?_⟩
      · rw [hcalls, get_advance hx hc, if_neg hne]
      · by_cases e : n = j
        · subst e; rw [hx] at hd; cases hd
          refine ⟨{ d with pc := d.pc + 1 }, by rw [hcalls, get_advance hx hx, if_pos rfl], hk, ?_⟩
          rcases hp with hp | hp
          · right; simp [hp]
          · simp [St.go, Call.writer, hk, hp, b2] at hs
        · exact ⟨d, by rw [hcalls, get_advance hx hd, if_neg e], hk, hp⟩
      · rcases go_items (q := q) hs with k | ⟨k1, k2⟩
        · have := h.empty; omega
        · exact absurd ⟨k2, by omega, by omega⟩ hxq
      · intro y hy
        rw [hcalls] at hy
        rcases List.mem_or_eq_of_mem_set hy with hy | rfl
        · exact h.quiet y hy
        · intro hu
          obtain ⟨u1, u2, u3⟩ := hu
          simp only at u1 u2 u3
          by_cases h0 : x.pc = 0
          · simp [St.go, Call.writer, u1, h0, b1] at hs
          · exact hxq ⟨u1, by omega, by omega⟩
    · cases hs

theorem Stuck.run : ∀ (ls : List Label) {s s' : St} {i j q : Nat}, Stuck s i j q → (∀ l ∈ ls, l ≠ .close i) → QueueGate.run s ls = some s' → Stuck s' i j q
  | [], s, s', i, j, q, h, _, hr => by simp only [QueueGate.run, Option.some.injEq] at hr; subst hr; exact h
  | l :: ls, s, s', i, j, q, h, hl, hr => by
    simp only [QueueGate.run] at hr
    split at hr
    · cases hr
    · next s1 h1 => exact Stuck.run ls (h.step (hl l (by simp)) h1) (fun l' hl' => hl l' (by simp [hl'])) hr

/-- Request `n` has not arrived, or is a writing one, or has not begun. -/
def Idle (s : St) (n : Nat) : Prop := ∀ c, s.calls[n]? = some c → c.kind ≠ .write → c.pc = 0

theorem Stuck.idle_step {s s' : St} {i j q : Nat} (h : Stuck s i j q) {l : Label} (hs : QueueGate.step s l = some s') {n : Nat} (hn : Idle s n) : Idle s' n := by
  intro c' hc' hk
  cases l with
  | arrive k =>
    simp only [QueueGate.step, Option.some.injEq] at hs; subst hs
    rcases Nat.lt_or_ge n s.calls.length with hl | hl
    · rw [List.getElem?_append_left hl] at hc'; exact hn c' hc' hk
    · rw [List.getElem?_append_right hl] at hc'
      have := List.mem_of_getElem? hc'
      simp at this; subst this; rfl
  | close m =>
    simp only [QueueGate.step] at hs
    split at hs
    · next x hx =>
      simp only [Option.some.injEq] at hs; subst hs
      simp only [List.getElem?_set] at hc'
      split at hc'
      · next e =>
        split at hc'
        · cases hc'; exact hn x (by rw [← e]; exact hx) hk
        · cases hc'
      · exact hn c' hc' hk
    · cases hs
  | go m =>
    simp only [QueueGate.step] at hs
    split at hs
    · next x hx =>
      rw [go_calls hs] at hc'
      simp only [St.advance, List.getElem?_set] at hc'
      split at hc'
      · next e =>
        split at hc'
        · cases hc'
          have h0 := hn x (by rw [← e]; exact hx) hk
          have : x.writer = false := by simp only [Call.writer, decide_eq_false_iff_not]; exact hk
          simp [St.go, this, h0, h.blocked.1] at hs
        · cases hc'
      · exact hn c' hc' hk
    · cases hs

theorem Stuck.idle : ∀ (ls : List Label) {s s' : St} {i j q : Nat}, Stuck s i j q → (∀ l ∈ ls, l ≠ .close i) → QueueGate.run s ls = some s' →
    ∀ {n : Nat}, Idle s n → Idle s' n
  | [], s, s', i, j, q, h, _, hr, n, hn => by
    simp only [QueueGate.run, Option.some.injEq] at hr; subst hr; exact hn
  | l :: ls, s, s', i, j, q, h, hl, hr, n, hn => by
    simp only [QueueGate.run] at hr
    split at hr
    · cases hr
    · next s1 h1 =>
      exact Stuck.idle ls (h.step (hl l (by simp)) h1) (fun l' hl' => hl l' (by simp [hl'])) hr (h.idle_step h1 hn)

/-- No request goes beyond its end. -/
def Bounded (s : St) : Prop := ∀ c ∈ s.calls, c.kind ≠ .write → c.pc ≤ 5

theorem Bounded.step {s s' : St} (h : Bounded s) {l : Label} (hs : QueueGate.step s l = some s') : Bounded s' := by
  intro c' hc' hk
  cases l with
  | arrive k =>
    simp only [QueueGate.step, Option.some.injEq] at hs; subst hs
    rcases List.mem_append.1 hc' with hc' | hc'
    · exact h c' hc' hk
    · simp at hc'; subst hc'; simp
  | close m =>
    simp only [QueueGate.step] at hs
    split at hs
    · next x hx =>
      simp only [Option.some.injEq] at hs; subst hs
      rcases List.mem_or_eq_of_mem_set hc' with hc' | rfl
      · exact h c' hc' hk
      · exact h x (List.mem_of_getElem? hx) hk
    · cases hs
  | go m =>
    simp only [QueueGate.step] at hs
    split at hs
    · next x hx =>
      rw [go_calls hs] at hc'
      rcases List.mem_or_eq_of_mem_set hc' with hc' | rfl
      · exact h c' hc' hk
      · have h5 := h x (List.mem_of_getElem? hx) hk
        simp only at hk ⊢
        have : x.pc ≠ 5 := by
          intro e
          have : x.writer = false := by simp [Call.writer, hk]
          simp [St.go, this, e] at hs
        omega
    · cases hs

theorem Bounded.run : ∀ (ls : List Label) {s s' : St}, Bounded s → QueueGate.run s ls = some s' → Bounded s'
  | [], s, s', h, hr => by simp only [QueueGate.run, Option.some.injEq] at hr; subst hr; exact h
  | l :: ls, s, s', h, hr => by
    simp only [QueueGate.run] at hr
    split at hr
    · cases hr
    · next s1 h1 => exact Bounded.run ls (h.step h1) hr

/-- Without writing requests nothing blocks but a dequeue that waits. -/
theorem readers_go {s : St} (hw : ∀ c ∈ s.calls, c.kind ≠ .write) {i : Nat} {c : Call} (hc : s.calls[i]? = some c) (hp : c.pc ≤ 4) :
    (∃ s', s.go i c = some s') ∨ ∃ q, Waits c q ∧ s.items q = 0 := by
  have hnw : ∀ c ∈ s.calls, c.writer = false := fun c hc => by simp [Call.writer, hw c hc]
  have h1 : s.canReadTree = true := by
    simp only [St.canReadTree, List.all_eq_true]; intro x hx; simp [Call.ownsTree, Call.wantsTree, hnw x hx]
  have h2 : s.canReadRoot = true := by
    simp only [St.canReadRoot, List.all_eq_true]; intro x hx; simp [Call.ownsRoot, Call.wantsRoot, hnw x hx]
  have h3 := hnw c (List.mem_of_getElem? hc)
  have : c.pc = 0 ∨ c.pc = 1 ∨ c.pc = 2 ∨ c.pc = 3 ∨ c.pc = 4 := by omega
  rcases this with e | e | e | e | e
  · left; exact ⟨s.advance i c, by simp [St.go, h3, e, h1]⟩
  · left; exact ⟨s.advance i c, by simp [St.go, h3, e, h2]⟩
  · left; exact ⟨s.advance i c, by simp [St.go, h3, e]⟩
  · cases hk : c.kind with
    | enqueue q => left; simp [St.go, h3, e, St.callback, hk]
    | look q => left; simp [St.go, h3, e, St.callback, hk]
    | write => exact absurd hk (hw c (List.mem_of_getElem? hc))
    | dequeue q =>
      by_cases hi : s.items q > 0
      · left; simp [St.go, h3, e, St.callback, hk, hi]
      · cases hcl : c.closed with
        | true => left; simp [St.go, h3, e, St.callback, hk, hi, hcl]
        | false => right; exact ⟨q, ⟨hk, e, hcl⟩, by omega⟩
  · left; exact ⟨s.advance i c, by simp [St.go, h3, e]⟩

end Willow.QueueGate
