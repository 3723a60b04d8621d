import Verif.Model.DestroySync
namespace Willow.DestroySync

/-- Threads between winning the compare-and-swap and clearing the flag. -/
def busy (l : List PC) : Nat := l.count .won + l.count .waiting + l.count .destroying + l.count .unlocked

structure Inv (s : St) : Prop where
  readers : s.rw.readers = s.threads.count .guarded
  pending : s.rw.pending = true ↔ 0 < s.threads.count .waiting
  held : s.rw.held = true ↔ 0 < s.threads.count .destroying
  flag : busy s.threads = if s.destroying then 1 else 0
  excl : s.rw.held = true → s.rw.readers = 0

theorem inv_init (n : Nat) : Inv (init n) := by
  constructor <;> simp [init, busy, List.count_replicate]

set_option linter.unusedSimpArgs false in
theorem Inv.step {s s' : St} {e : Ev} (h : Inv s) (hs : Step s e s') : Inv s' := by
  obtain ⟨h1, h2, h3, h4, h5⟩ := h
  cases hs <;> simp only [busy, List.count_append, List.count_cons] at * <;> simp at * <;> constructor <;>
    simp only [busy, List.count_append, List.count_cons] <;> grind

theorem reach_inv {n : Nat} {s : St} (h : Reach n s) : Inv s := by
  induction h with
  | init => exact inv_init n
  | step _ hs ih => exact ih.step hs

end Willow.DestroySync
