import Verif.Spec.DestroyGate
/-
The count that the WaitGroup of the tree keeps, as long as nobody has panicked.
-/
namespace Willow.DestroyGate

/-- The sum of `f` over a list. -/
def tot {α : Type} (f : α → Nat) : List α → Nat
  | [] => 0
  | a :: l => f a + tot f l

theorem tot_append {α : Type} (f : α → Nat) (l : List α) (a : α) : tot f (l ++ [a]) = tot f l + f a := by
  induction l with
  | nil => simp [tot]
  | cons b l ih => simp only [List.cons_append, tot, ih]; omega

theorem tot_set {α : Type} (f : α → Nat) : ∀ (l : List α) (i : Nat) (a b : α), l[i]? = some a →
    tot f (l.set i b) + f a = tot f l + f b
  | [], i, a, b, h => by simp at h
  | c :: l, 0, a, b, h => by
      simp only [List.getElem?_cons_zero, Option.some.injEq] at h
      subst h; simp only [List.set_cons_zero, tot]; omega
  | c :: l, i + 1, a, b, h => by
      simp only [List.getElem?_cons_succ] at h
      have := tot_set f l i a b h
      simp only [List.set_cons_succ, tot]; omega

theorem tot_le {α : Type} (f : α → Nat) : ∀ (l : List α) (i : Nat) (a : α), l[i]? = some a → f a ≤ tot f l
  | [], i, a, h => by simp at h
  | c :: l, 0, a, h => by
      simp only [List.getElem?_cons_zero, Option.some.injEq] at h
      subst h; simp only [tot]; omega
  | c :: l, i + 1, a, h => by
      simp only [List.getElem?_cons_succ] at h
      have := tot_le f l i a h
      simp only [tot]; omega

theorem tot_le2 {α : Type} (f : α → Nat) : ∀ (l : List α) (i j : Nat) (a b : α), i ≠ j → l[i]? = some a → l[j]? = some b →
    f a + f b ≤ tot f l
  | [], i, _, a, _, _, h, _ => by simp at h
  | c :: l, 0, 0, a, b, hij, h, h' => absurd rfl hij
  | c :: l, 0, j + 1, a, b, hij, h, h' => by
      simp only [List.getElem?_cons_zero, Option.some.injEq] at h
      simp only [List.getElem?_cons_succ] at h'
      have := tot_le f l j b h'
      subst h; simp only [tot]; omega
  | c :: l, i + 1, 0, a, b, hij, h, h' => by
      simp only [List.getElem?_cons_zero, Option.some.injEq] at h'
      simp only [List.getElem?_cons_succ] at h
      have := tot_le f l i a h
      subst h'; simp only [tot]; omega
  | c :: l, i + 1, j + 1, a, b, hij, h, h' => by
      simp only [List.getElem?_cons_succ] at h h'
      have := tot_le2 f l i j a b (by omega) h h'
      simp only [tot]; omega

theorem tot_mono {α : Type} {f g : α → Nat} (h : ∀ a, f a ≤ g a) (l : List α) : tot f l ≤ tot g l := by
  induction l with
  | nil => simp [tot]
  | cons b l ih => have := h b; simp only [tot]; omega

theorem tot_pos {α : Type} {f : α → Nat} {l : List α} (h : 0 < tot f l) : ∃ (i : Nat) (a : α), l[i]? = some a ∧ 0 < f a := by
  induction l with
  | nil => simp [tot] at h
  | cons b l ih =>
      by_cases hb : 0 < f b
      · exact ⟨0, b, by simp, hb⟩
      · simp only [tot] at h
        obtain ⟨i, a, h1, h2⟩ := ih (by omega)
        exact ⟨i + 1, a, by simpa using h1, h2⟩

theorem mem_pos {α : Type} {f : α → Nat} {l : List α} {a : α} (h : a ∈ l) (ha : 0 < f a) : 0 < tot f l := by
  obtain ⟨i, hi⟩ := List.getElem?_of_mem h
  have := tot_le f l i a hi; omega

/-! Weights -/

def cnt : CPc → Nat
  | .added | .working | .refused => 1
  | _ => 0
def wk : CPc → Nat
  | .working => 1
  | _ => 0
def lst : CPc → Nat
  | .last _ _ | .reset _ _ => 1
  | _ => 0
def rel : CPc → Nat
  | .release n _ => n
  | _ => 0
def bad : CPc → Nat
  | .last w k | .reset w k => if w = 1 ∧ k = false then 0 else 1
  | .release n k => if n ≤ 1 ∧ k = false then 0 else 1
  | _ => 0
def cbr : CPc → Nat
  | .broke => 1
  | _ => 0
def slp : DPc → Nat
  | .sleeping => 1
  | _ => 0
def wkn : DPc → Nat
  | .woken => 1
  | _ => 0
def ins : DPc → Nat
  | .inside => 1
  | _ => 0
def wai : DPc → Nat
  | .waiting => 1
  | _ => 0
def dbr : DPc → Nat
  | .broke => 1
  | _ => 0

theorem noPanic_iff (s : W) : NoPanic s ↔ tot cbr s.calls = 0 ∧ tot dbr s.dest = 0 := by
  constructor
  · intro ⟨h1, h2⟩
    constructor
    · apply Classical.byContradiction
      intro h
      obtain ⟨i, a, hi, ha⟩ := tot_pos (Nat.pos_of_ne_zero h)
      cases a <;> simp [cbr] at ha
      exact h1 (List.mem_of_getElem? hi)
    · apply Classical.byContradiction
      intro h
      obtain ⟨i, a, hi, ha⟩ := tot_pos (Nat.pos_of_ne_zero h)
      cases a <;> simp [dbr] at ha
      exact h2 (List.mem_of_getElem? hi)
  · intro ⟨h1, h2⟩
    constructor
    · intro h; have := mem_pos (f := cbr) h (by simp [cbr]); omega
    · intro h; have := mem_pos (f := dbr) h (by simp [dbr]); omega

/-- The state of the WaitGroup and the flag fit the calls that are under way. -/
structure J (s : W) : Prop where
  v : s.v = tot cnt s.calls
  sl : tot slp s.dest = s.w + tot rel s.calls + s.sema
  fl : tot slp s.dest + tot wkn s.dest + tot ins s.dest + tot wai s.dest = if s.flag then 1 else 0
  ls : 0 < tot lst s.calls → tot lst s.calls = 1 ∧ tot cnt s.calls = 0 ∧ s.w = 1
  ww : 0 < s.w → tot lst s.calls = 1 ∨ 0 < tot cnt s.calls
  bd : tot bad s.calls = 0
  ex : 0 < tot rel s.calls + s.sema + tot wkn s.dest + tot ins s.dest → tot wk s.calls = 0

theorem wk_le (l : List CPc) : tot wk l ≤ tot cnt l := tot_mono (by intro a; cases a <;> simp [wk, cnt]) l

theorem J.init : J W.init := by
  constructor <;> simp [W.init, tot]

theorem J.step {s s' : W} {l : Lbl} (hj : J s) (h : Step s l s') (hn : NoPanic s') : J s' := by
  obtain ⟨jv, jsl, jfl, jls, jww, jbd, jex⟩ := hj
  rw [noPanic_iff] at hn
  obtain ⟨hn1, hn2⟩ := hn
  have hwk := wk_le s.calls
  cases h with
  | begin =>
      simp only [tot_append] at hn1
      have hw : ¬ (s.w ≠ 0 ∧ s.v + 1 = 1) := by
        intro hc
        have hlt : ¬ (s.v + 1 < 0) := by omega
        have : beginPc (s.v + 1) s.w = .broke := by
          simp [beginPc, addRes, hlt, hc.1, hc.2]
        rw [this] at hn1
        simp only [cbr] at hn1
        omega
      have hb : beginPc (s.v + 1) s.w = .added := by
        have hlt : ¬ (s.v + 1 < 0) := by omega
        have hgt : s.v + 1 > 0 := by omega
        have hw' : ¬ (s.w ≠ 0 ∧ (1 : Int) > 0 ∧ s.v + 1 = 1) := by
          intro h; exact hw ⟨h.1, h.2.2⟩
        simp only [beginPc, addRes, hlt, hgt, hw', if_false, true_or, if_true]
      simp only [hb] at *
      constructor <;> simp only [tot_append, cnt, rel, lst, bad, wk] <;> grind
  | destroy =>
      constructor <;> simp only [tot_append] <;> cases hf : s.flag <;> simp [hf, slp, wkn, ins, wai] at * <;> grind
  | call i pc pc' v w sema hi hc =>
      have t1 := tot_set cnt s.calls i pc pc' hi
      have t2 := tot_set wk s.calls i pc pc' hi
      have t3 := tot_set lst s.calls i pc pc' hi
      have t4 := tot_set rel s.calls i pc pc' hi
      have t5 := tot_set bad s.calls i pc pc' hi
      have t6 := tot_set cbr s.calls i pc pc' hi
      have u1 := tot_le cnt s.calls i pc hi
      have u3 := tot_le lst s.calls i pc hi
      have u4 := tot_le rel s.calls i pc hi
      have u5 := tot_le bad s.calls i pc hi
      simp only at hn1
      cases hc with
      | check =>
          cases hf : s.flag <;> simp only [hf, if_true, if_false, Bool.false_eq_true, cnt, wk, lst, rel, bad, cbr] at * <;>
            constructor <;> simp only [hf] <;> grind
      | leave =>
          have he : endPc (s.v - 1) s.w = .over ∧ (s.v > 1 ∨ s.w = 0) ∨
              endPc (s.v - 1) s.w = .last s.w false ∧ s.v = 1 ∧ s.w ≠ 0 := by
            simp only [cnt] at u1
            simp only [endPc, addRes]
            grind
          rcases he with ⟨he, he'⟩ | ⟨he, he'⟩ <;> rw [he] at t1 t2 t3 t4 t5 t6 ⊢ <;>
            simp only [cnt, wk, lst, rel, bad, cbr] at * <;> constructor <;> simp only <;> grind
      | leaveRefused =>
          have he : endPc (s.v - 1) s.w = .over ∧ (s.v > 1 ∨ s.w = 0) ∨
              endPc (s.v - 1) s.w = .last s.w false ∧ s.v = 1 ∧ s.w ≠ 0 := by
            simp only [cnt] at u1
            simp only [endPc, addRes]
            grind
          rcases he with ⟨he, he'⟩ | ⟨he, he'⟩ <;> rw [he] at t1 t2 t3 t4 t5 t6 ⊢ <;>
            simp only [cnt, wk, lst, rel, bad, cbr] at * <;> constructor <;> simp only <;> grind
      | compare w k =>
          by_cases hw : s.v = 0 ∧ s.w = w
          · rw [if_pos hw] at t1 t2 t3 t4 t5 t6 ⊢
            simp only [cnt, wk, lst, rel, bad, cbr] at *
            constructor <;> simp only <;> grind
          · rw [if_neg hw] at t6 hn1
            simp only [cbr] at *
            omega
      | reset w k =>
          simp only [cnt, wk, lst, rel, bad, cbr] at *
          constructor <;> simp only <;> grind
      | release n k =>
          simp only [cnt, wk, lst, rel, bad, cbr] at *
          constructor <;> simp only <;> grind
      | released k =>
          cases k <;> simp only [afterAdd, cnt, wk, lst, rel, bad, cbr] at * <;> constructor <;> simp only <;> grind
  | dest i pc pc' w sema flag hi hd =>
      have t1 := tot_set slp s.dest i pc pc' hi
      have t2 := tot_set wkn s.dest i pc pc' hi
      have t3 := tot_set ins s.dest i pc pc' hi
      have t4 := tot_set wai s.dest i pc pc' hi
      have t5 := tot_set dbr s.dest i pc pc' hi
      cases hd <;> simp only [slp, wkn, ins, wai, dbr] at * <;> first | omega | (constructor <;> simp only <;> grind)

theorem noPanic_back {s s' : W} {l : Lbl} (h : Step s l s') (hn : NoPanic s') : NoPanic s := by
  rw [noPanic_iff] at *
  cases h with
  | begin => simp only [tot_append] at hn; omega
  | destroy => simp only [tot_append] at hn; omega
  | call i pc pc' v w sema hi hc =>
      have t6 := tot_set cbr s.calls i pc pc' hi
      cases hc <;> simp only [cbr] at * <;> omega
  | dest i pc pc' w sema flag hi hd =>
      have t5 := tot_set dbr s.dest i pc pc' hi
      cases hd <;> simp only [dbr] at * <;> omega

theorem J.run {R : W → Lbl → Prop} {s : W} (h : Run R W.init s) (hn : NoPanic s) : J s := by
  generalize h0 : W.init = s0 at h
  induction h with
  | refl => subst h0; exact J.init
  | step _ _ h2 ih => exact (ih (noPanic_back h2 hn)).step h2 hn

end Willow.DestroyGate
