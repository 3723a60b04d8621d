import Verif.Model.FloatText
import Verif.Spec.FloatText
import Verif.Proofs.DataTypes
/-! Reading back the text of a floating point number. -/
namespace Willow
open Spec

/-! ### Rounding an exact value -/

theorem roundNE_exact {n d : Nat} (h : 0 < d) : roundNE (n * d) d = n := by
  unfold roundNE
  rw [Nat.mul_mod_left, Nat.mul_div_cancel _ h]
  simp [h]

theorem magnitude_pos {p m : Nat} (h : m ≠ 0) : 0 < magnitude p m := by
  have := magnitude_lt (p := p) (a := 0) (b := m) (by omega)
  omega

theorem roundPattern_exact {p m d : Nat} (hd : 0 < d) : roundPattern p (magnitude p m * d) d = m := by
  have hp : 0 < 2 ^ p := Nat.two_pow_pos p
  have hdm := Nat.div_add_mod m (2 ^ p)
  have hlt := Nat.mod_lt m hp
  unfold roundPattern
  rw [Nat.mul_div_cancel _ hd]
  by_cases h0 : m / 2 ^ p = 0
  · have hM : magnitude p m = m := by
      simp only [magnitude, expField, fracField, h0, if_true]
      simp only [h0, Nat.mul_zero] at hdm; omega
    have hl : Nat.log2 m - p = 0 := by
      by_cases hz : m = 0
      · subst hz; simp
      · have hlt' : m < 2 ^ p := by rw [h0] at hdm; omega
        have : Nat.log2 m < p := (Nat.log2_lt hz).2 hlt'
        omega
    rw [hM, hl]
    simp [roundNE_exact hd]
  · obtain ⟨k, hk⟩ : ∃ k, m / 2 ^ p = k + 1 := ⟨m / 2 ^ p - 1, (Nat.succ_pred_eq_of_ne_zero h0).symm⟩
    have hM : magnitude p m = (2 ^ p + m % 2 ^ p) * 2 ^ k := by
      simp [magnitude, expField, fracField, hk]
    have hl : Nat.log2 ((2 ^ p + m % 2 ^ p) * 2 ^ k) = p + k := by
      have hne : (2 ^ p + m % 2 ^ p) * 2 ^ k ≠ 0 := by
        have := Nat.mul_pos (show 0 < 2 ^ p + m % 2 ^ p by omega) (Nat.two_pow_pos k)
        omega
      have h1 : p + k ≤ Nat.log2 ((2 ^ p + m % 2 ^ p) * 2 ^ k) := by
        rw [Nat.le_log2 hne, Nat.pow_add]
        exact Nat.mul_le_mul_right _ (by omega)
      have h2 : Nat.log2 ((2 ^ p + m % 2 ^ p) * 2 ^ k) < p + k + 1 := by
        rw [Nat.log2_lt hne, Nat.add_right_comm, Nat.pow_add, Nat.pow_succ]
        exact Nat.mul_lt_mul_of_pos_right (by omega) (Nat.two_pow_pos k)
      omega
    rw [hM, hl]
    have e : p + k - p = k := by omega
    rw [e, Nat.mul_assoc, Nat.mul_comm (2 ^ k) d, roundNE_exact (Nat.mul_pos hd (Nat.two_pow_pos k))]
    rw [hk] at hdm
    rw [Nat.mul_add, Nat.mul_comm (2 ^ p) k, Nat.mul_one] at hdm
    omega

theorem decimalPattern_exact (p w m : Nat) : decimalPattern p w (exactTen p w m) (-(floatUnit p w : Int)) = m := by
  unfold decimalPattern exactTen
  have h1 : (-(floatUnit p w : Int)).toNat = 0 := by omega
  have h2 : (-(-(floatUnit p w : Int))).toNat = floatUnit p w := by omega
  rw [h1, h2, Nat.pow_zero, Nat.mul_one, Nat.mul_assoc, ← Nat.mul_pow]
  exact roundPattern_exact (Nat.pow_pos (by decide))

theorem readsBack_shortestFrom {p w m X L : Nat} (hX : X = exactTen p w m) (fuel n : Nat) :
    decimalPattern p w (shortestFrom p w m X L fuel n).1 (shortestFrom p w m X L fuel n).2 = m := by
  induction fuel generalizing n with
  | zero => subst hX; exact decimalPattern_exact p w m
  | succ fuel ih =>
    simp only [shortestFrom, Bool.and_eq_true]
    split
    · rename_i h
      split
      · simpa [readsBack] using h.1
      · simpa [readsBack] using h.2
    · split
      · rename_i h; simpa [readsBack] using h
      · split
        · rename_i h; simpa [readsBack] using h
        · exact ih (n + 1)

theorem shortest_readsBack (p w m : Nat) : decimalPattern p w (shortest p w m).1 (shortest p w m).2 = m :=
  readsBack_shortestFrom rfl _ _

/-! ### Digits -/

theorem digitsAux_len (k : Nat) : ∀ (fuel n : Nat) (acc : GoString), n < 10 ^ (k + 1) → n ≤ fuel →
    (digitsAux fuel n acc).length ≤ acc.length + (k + 1) := by
  induction k with
  | zero =>
    intro fuel n acc h hf
    cases fuel with
    | zero => simp [digitsAux]
    | succ fuel => simp [digitsAux, show n < 10 by simpa using h]
  | succ k ih =>
    intro fuel n acc h hf
    cases fuel with
    | zero => simp [digitsAux]
    | succ fuel =>
      simp only [digitsAux]
      split
      · simp
      · have := ih fuel (n / 10) (UInt8.ofNat (48 + n % 10) :: acc)
          (by rw [Nat.pow_succ] at h; omega) (by omega)
        simp only [List.length_cons] at this
        omega

theorem formatUint_len {n k : Nat} (h : n < 10 ^ k) (hk : 0 < k) : (formatUint n).length ≤ k := by
  obtain ⟨j, rfl⟩ : ∃ j, k = j + 1 := ⟨k - 1, by omega⟩
  have := digitsAux_len j n n [] h (Nat.le_refl _)
  simpa [formatUint] using this

theorem formatUint_val (n : Nat) : digitsVal (formatUint n) 0 = some n := by
  simpa [formatUint, digitsVal] using digitsVal_digitsAux n n [] (Nat.le_refl _)

/-- A decimal digit. -/
def IsDigit (c : UInt8) : Prop := 48 ≤ c.toNat ∧ c.toNat ≤ 57

theorem digitsAux_digit (fuel : Nat) : ∀ (n : Nat) (acc : GoString), (∀ c ∈ acc, IsDigit c) → ∀ c ∈ digitsAux fuel n acc, IsDigit c := by
  induction fuel with
  | zero =>
    intro n acc ha c hc
    simp only [digitsAux, List.mem_cons] at hc
    rcases hc with rfl | hc
    · rw [IsDigit, digit_toNat (by omega)]; omega
    · exact ha c hc
  | succ fuel ih =>
    intro n acc ha c hc
    simp only [digitsAux] at hc
    split at hc
    · rename_i h
      simp only [List.mem_cons] at hc
      rcases hc with rfl | hc
      · rw [IsDigit, digit_toNat (by omega)]; omega
      · exact ha c hc
    · refine ih _ _ ?_ c hc
      intro c hc
      simp only [List.mem_cons] at hc
      rcases hc with rfl | hc
      · rw [IsDigit, digit_toNat (by omega)]; omega
      · exact ha c hc

theorem formatUint_digit (n : Nat) : ∀ c ∈ formatUint n, IsDigit c := digitsAux_digit n n [] (by simp)

theorem digitsAux_ne (fuel : Nat) : ∀ (n : Nat) (acc : GoString), digitsAux fuel n acc ≠ [] := by
  induction fuel with
  | zero => intro n acc; simp [digitsAux]
  | succ fuel ih =>
    intro n acc
    simp only [digitsAux]
    split
    · simp
    · exact ih _ _

theorem formatUint_ne (n : Nat) : formatUint n ≠ [] := digitsAux_ne n n []

theorem digitsVal_ge {ds : GoString} {acc v : Nat} (h : digitsVal ds acc = some v) : acc ≤ v := by
  induction ds generalizing acc with
  | nil => simp [digitsVal] at h; omega
  | cons c cs ih =>
    simp only [digitsVal] at h
    split at h
    · have := ih h; omega
    · simp at h

/-! ### The mantissa -/

theorem readMant_digits {ds : GoString} {acc v : Nat} (h : digitsVal ds acc = some v) (rest r : GoString) (f : Nat) (dot dg : Bool) :
    readMant (ds ++ rest) ⟨acc, f, dot, dg, r⟩ =
      readMant rest ⟨v, if dot then f + ds.length else f, dot, dg || !ds.isEmpty, r⟩ := by
  induction ds generalizing acc f dg with
  | nil => simp [digitsVal] at h; subst h; cases dot <;> simp
  | cons c cs ih =>
    simp only [digitsVal] at h
    split at h
    · rename_i hc
      simp only [List.cons_append, readMant, hc, and_self, if_true]
      rw [ih h]
      cases dot <;> cases cs <;> simp [Nat.add_assoc, Nat.add_comm]
    · simp at h

theorem readMant_stop {c : UInt8} {cs : GoString} (st : Mant) (h1 : ¬ IsDigit c) (h2 : c ≠ 46) :
    readMant (c :: cs) st = { st with rest := c :: cs } := by
  have h1' : ¬ (48 ≤ c.toNat ∧ c.toNat ≤ 57) := h1
  simp [readMant, h1', h2]

/-! ### The exponent -/

theorem readExpDigits_eq {ds : GoString} {e v : Nat} (h : digitsVal ds e = some v) (hv : v < 100000) :
    readExpDigits ds e = some v := by
  induction ds generalizing e with
  | nil => simpa [digitsVal, readExpDigits] using h
  | cons c cs ih =>
    simp only [digitsVal] at h
    split at h
    · rename_i hc
      have := digitsVal_ge h
      simp only [readExpDigits, hc, and_self, if_true, show e < 10000 by omega]
      exact ih h
    · simp at h

theorem readExp_expText {e : Int} (h : e.natAbs < 100000) : readExp (69 :: expText e) = some e := by
  have hd : ∀ n : Nat, digitsVal (if n < 10 then 48 :: formatUint n else formatUint n) 0 = some n := by
    intro n
    split
    · simp only [digitsVal]; simpa using formatUint_val n
    · exact formatUint_val n
  have hne : ∀ n : Nat, (if n < 10 then (48 : UInt8) :: formatUint n else formatUint n) ≠ [] := by
    intro n; split
    · simp
    · exact formatUint_ne n
  have hl : asciiLower 69 = 101 := by decide
  simp only [readExp, hl, ne_eq, not_true_eq_false, if_false, expText]
  by_cases hs : e < 0
  · simp only [hs, if_true, splitSign]
    simp only [show ((45 : UInt8) = 43) = False by simp, if_false, if_true, hne, readExpDigits_eq (hd _) h, Option.map]
    simp; omega
  · simp only [hs, if_false, splitSign]
    simp only [if_true, hne, if_false, readExpDigits_eq (hd _) h, Option.map]
    simp; omega

/-! ### The text -/

theorem readDecimal_sciText {c : Nat × Int} (h : (c.2 + ((formatUint c.1).length - 1 : Nat)).natAbs < 100000) :
    readDecimal (sciText c) = some c := by
  have hv := formatUint_val c.1
  have hne := formatUint_ne c.1
  have hE : ¬ IsDigit 69 := by unfold IsDigit; decide
  have hx := readExp_expText h
  unfold sciText
  generalize hg : formatUint c.1 = ds at *
  unfold readDecimal
  match ds, hne with
  | [a], _ =>
    simp only [mantText]
    rw [readMant_digits hv, readMant_stop _ hE (by decide)]
    simp only [finishDecimal, hx]
    simp
  | a :: b :: cs, _ =>
    have ha : 48 ≤ a.toNat ∧ a.toNat ≤ 57 := by
      simp only [digitsVal] at hv
      split at hv
      · assumption
      · simp at hv
    have hv' : digitsVal (b :: cs) (0 * 10 + (a.toNat - 48)) = some c.1 := by
      rw [digitsVal] at hv
      simpa [ha] using hv
    have h46 : ¬ (48 ≤ (46 : UInt8).toNat ∧ (46 : UInt8).toNat ≤ 57) := by decide
    have e : readMant (mantText (a :: b :: cs) ++ 69 :: expText (c.2 + ((a :: b :: cs).length - 1 : Nat))) ⟨0, 0, false, false, []⟩ =
        ⟨c.1, (b :: cs).length, true, true, 69 :: expText (c.2 + ((a :: b :: cs).length - 1 : Nat))⟩ := by
      have h1 := readMant_digits hv' (69 :: expText (c.2 + ((a :: b :: cs).length - 1 : Nat))) [] 0 true true
      rw [readMant_stop _ hE (by decide)] at h1
      simp only [mantText, List.cons_append]
      unfold readMant
      simp only [ha, and_self, if_true]
      unfold readMant
      simp only [h46, if_false, and_self, if_true, Bool.false_eq_true]
      simp only [List.cons_append] at h1
      rw [h1]
      simp
    rw [e]
    simp only [finishDecimal, hx]
    simp

/-! ### Bounds on the digits and the exponent -/

theorem magnitude_bound {p w m : Nat} (h : m < floatInf p w) : magnitude p m < 2 ^ (p + 2 ^ w) := by
  have hp : 0 < 2 ^ p := Nat.two_pow_pos p
  have hlt := Nat.mod_lt m hp
  have hw : m / 2 ^ p < 2 ^ w - 1 := by rw [Nat.div_lt_iff_lt_mul hp]; exact h
  simp only [magnitude, expField, fracField]
  by_cases h0 : m / 2 ^ p = 0
  · simp only [h0, if_true]
    exact Nat.lt_of_lt_of_le hlt (Nat.pow_le_pow_right (by decide) (by omega))
  · simp only [h0, if_false]
    have h1 : (2 ^ p + m % 2 ^ p) * 2 ^ (m / 2 ^ p - 1) < 2 ^ (p + 1) * 2 ^ (m / 2 ^ p - 1) :=
      Nat.mul_lt_mul_of_pos_right (by rw [Nat.pow_succ]; omega) (Nat.two_pow_pos _)
    rw [← Nat.pow_add] at h1
    refine Nat.lt_of_lt_of_le h1 (Nat.pow_le_pow_right (by decide) ?_)
    generalize m / 2 ^ p = q at *
    omega

theorem exactTen_bound {p w m : Nat} (h : m < floatInf p w) : exactTen p w m < 10 ^ (p + 2 ^ w + floatUnit p w) := by
  unfold exactTen
  rw [Nat.pow_add 10 (p + 2 ^ w)]
  have h1 := magnitude_bound h
  have h2 : 2 ^ (p + 2 ^ w) ≤ 10 ^ (p + 2 ^ w) := Nat.pow_le_pow_left (by decide) _
  have h3 : 5 ^ floatUnit p w ≤ 10 ^ floatUnit p w := Nat.pow_le_pow_left (by decide) _
  exact Nat.mul_lt_mul_of_lt_of_le (by omega) h3 (Nat.pow_pos (by decide))

theorem shortestFrom_bounds {p w m X L : Nat} (hX : 0 < X) (fuel n : Nat) (h : n + fuel = L) :
    (shortestFrom p w m X L fuel n).1 ≤ X + 1 ∧ -(floatUnit p w : Int) ≤ (shortestFrom p w m X L fuel n).2 ∧
      (shortestFrom p w m X L fuel n).2 ≤ (L : Int) := by
  induction fuel generalizing n with
  | zero => simp [shortestFrom]
  | succ fuel ih =>
    have hlo : X / 10 ^ (L - n) ≤ X := Nat.div_le_self _ _
    have hhi : (normTen (X / 10 ^ (L - n) + 1) ((L : Int) - n - floatUnit p w) n).1 ≤ X + 1 ∧
        -(floatUnit p w : Int) ≤ (normTen (X / 10 ^ (L - n) + 1) ((L : Int) - n - floatUnit p w) n).2 ∧
        (normTen (X / 10 ^ (L - n) + 1) ((L : Int) - n - floatUnit p w) n).2 ≤ (L : Int) := by
      unfold normTen
      split <;> simp <;> omega
    simp only [shortestFrom, Bool.and_eq_true]
    split
    · split
      · exact ⟨by simp; omega, by simp; omega, by simp; omega⟩
      · exact hhi
    · split
      · exact ⟨by simp; omega, by simp; omega, by simp; omega⟩
      · split
        · exact hhi
        · exact ih (n + 1) (by omega)

theorem shortest_exponent {p w m : Nat} (hK : 2 * (p + 2 ^ w + floatUnit p w) + 2 < 100000) (h : m < floatInf p w) (h0 : m ≠ 0) :
    ((shortest p w m).2 + ((formatUint (shortest p w m).1).length - 1 : Nat)).natAbs < 100000 := by
  have hX := exactTen_bound h
  have hpos : 0 < exactTen p w m := Nat.mul_pos (magnitude_pos h0) (Nat.pow_pos (by decide))
  have hKpos : 0 < p + 2 ^ w + floatUnit p w := by have := Nat.two_pow_pos w; omega
  have hL := formatUint_len hX hKpos
  have hL1 : 0 < (formatUint (exactTen p w m)).length := List.length_pos_iff.2 (formatUint_ne _)
  obtain ⟨b1, b2, b3⟩ := shortestFrom_bounds (p := p) (w := w) (m := m) hpos ((formatUint (exactTen p w m)).length - 1) 1
    (L := (formatUint (exactTen p w m)).length) (by omega)
  have hl := formatUint_len (n := (shortest p w m).1) (k := p + 2 ^ w + floatUnit p w + 1)
    (by rw [Nat.pow_succ]; unfold shortest; omega) (by omega)
  have b2' : -(floatUnit p w : Int) ≤ (shortest p w m).2 := b2
  have b3' : (shortest p w m).2 ≤ ((formatUint (exactTen p w m)).length : Int) := b3
  have aux : ∀ (U K L l : Nat) (x : Int), U ≤ K → 2 * K + 2 < 100000 → L ≤ K → l ≤ K + 1 → -(U : Int) ≤ x → x ≤ (L : Int) →
      (x + (l - 1 : Nat)).natAbs < 100000 := by intros; omega
  exact aux _ _ _ _ _ (Nat.le_add_left _ _) hK hL hl b2' b3'

/-! ### The whole text -/

/-- The bytes of a formatted finite number. -/
def PlainByte (c : UInt8) : Prop := IsDigit c ∨ c = 46 ∨ c = 69 ∨ c = 43 ∨ c = 45

theorem plain_not_exotic {s : GoString} (h : ∀ c ∈ s, PlainByte c) : exoticText s = false := by
  unfold exoticText
  rw [List.any_eq_false]
  intro c hc
  rcases h c hc with h | rfl | rfl | rfl | rfl
  · unfold IsDigit at h
    have h1 : c ≠ 95 := by rintro rfl; simp at h
    have h2 : c ≠ 120 := by rintro rfl; simp at h
    have h3 : c ≠ 88 := by rintro rfl; simp at h
    simp [h1, h2, h3]
  all_goals decide

theorem mantText_plain {ds : GoString} (h : ∀ c ∈ ds, IsDigit c) : ∀ c ∈ mantText ds, PlainByte c := by
  match ds with
  | [] => simp [mantText]
  | [a] => intro c hc; exact .inl (h c (by simpa [mantText] using hc))
  | a :: b :: cs =>
    intro c hc
    simp only [mantText, List.mem_cons] at hc
    rcases hc with rfl | rfl | rfl | hc
    · exact .inl (h _ (by simp))
    · exact .inr (.inl rfl)
    · exact .inl (h _ (by simp))
    · exact .inl (h _ (by simp [hc]))

theorem expText_plain (e : Int) : ∀ c ∈ expText e, PlainByte c := by
  intro c hc
  simp only [expText, List.mem_cons] at hc
  rcases hc with rfl | hc
  · split
    · exact .inr (.inr (.inr (.inr rfl)))
    · exact .inr (.inr (.inr (.inl rfl)))
  · split at hc
    · simp only [List.mem_cons] at hc
      rcases hc with rfl | hc
      · exact .inl (by unfold IsDigit; decide)
      · exact .inl (formatUint_digit _ c hc)
    · exact .inl (formatUint_digit _ c hc)

theorem sciText_plain (c : Nat × Int) : ∀ b ∈ sciText c, PlainByte b := by
  intro b hb
  simp only [sciText, List.mem_append, List.mem_cons] at hb
  rcases hb with hb | rfl | hb
  · exact mantText_plain (formatUint_digit _) b hb
  · exact .inr (.inr (.inl rfl))
  · exact expText_plain _ b hb

theorem sciText_head (c : Nat × Int) : ∃ d rest, sciText c = d :: rest ∧ IsDigit d := by
  have hne := formatUint_ne c.1
  have hd := formatUint_digit c.1
  unfold sciText
  generalize formatUint c.1 = ds at *
  match ds, hne with
  | [a], _ => exact ⟨a, _, rfl, hd a (by simp)⟩
  | a :: b :: cs, _ => exact ⟨a, _, rfl, hd a (by simp)⟩

theorem finiteText_plain (p w m : Nat) : ∀ b ∈ finiteText p w m, PlainByte b := by
  unfold finiteText
  split
  · intro b hb
    simp only [List.mem_cons, List.not_mem_nil, or_false] at hb
    rcases hb with rfl | rfl | rfl | rfl | rfl <;> unfold PlainByte IsDigit <;> decide
  · exact sciText_plain _

theorem finiteText_head (p w m : Nat) : ∃ d rest, finiteText p w m = d :: rest ∧ IsDigit d := by
  unfold finiteText
  split
  · exact ⟨48, _, rfl, by unfold IsDigit; decide⟩
  · exact sciText_head _

theorem finiteText_read {p w m : Nat} (hK : 2 * (p + 2 ^ w + floatUnit p w) + 2 < 100000) (h : m < floatInf p w) :
    ∃ c, readDecimal (finiteText p w m) = some c ∧ decimalPattern p w c.1 c.2 = m := by
  by_cases h0 : m = 0
  · subst h0
    refine ⟨(0, 0), by simp only [finiteText, if_true]; decide, ?_⟩
    unfold decimalPattern roundPattern
    simp [roundNE]
  · exact ⟨shortest p w m, by simp only [finiteText, h0, if_false]; exact readDecimal_sciText (shortest_exponent hK h h0),
      shortest_readsBack p w m⟩

theorem lower_digit {c : UInt8} (h : IsDigit c) : asciiLower c = c := by
  unfold IsDigit at h
  unfold asciiLower
  split
  · omega
  · rfl

theorem digit_not_special {d : UInt8} {cs : GoString} (h : IsDigit d) : isNanText (d :: cs) = false ∧ isInfText (d :: cs) = false := by
  have h1 : d ≠ 110 := by rintro rfl; unfold IsDigit at h; simp at h
  have h2 : d ≠ 105 := by rintro rfl; unfold IsDigit at h; simp at h
  simp [isNanText, isInfText, lower_digit h, h1, h2]

theorem splitSign_digit {d : UInt8} {cs : GoString} (h : IsDigit d) : splitSign (d :: cs) = (false, d :: cs) := by
  have h1 : d ≠ 43 := by rintro rfl; unfold IsDigit at h; simp at h
  have h2 : d ≠ 45 := by rintro rfl; unfold IsDigit at h; simp at h
  simp [splitSign, h1, h2]

/-- Formatting and parsing returns the number; NaN becomes the parser's NaN. -/
theorem parse_format {p w nan : Nat} (hK : 2 * (p + 2 ^ w + floatUnit p w) + 2 < 100000)
    (other : GoString → Option (Bool × Nat)) (neg : Bool) (m : Nat) :
    parseFloat p w nan other (formatFloat p w neg m) =
      some (if floatInf p w < m then (false, nan) else (neg, m)) := by
  unfold formatFloat
  by_cases h1 : floatInf p w < m
  · simp only [h1, if_true]
    have e1 : exoticText [78, 97, 78] = false := by decide
    have e2 : isNanText [78, 97, 78] = true := by decide
    simp [parseFloat, e1, e2]
  · simp only [h1, if_false]
    by_cases h2 : m = floatInf p w
    · simp only [h2, if_true]
      cases neg
      · have e1 : exoticText [43, 73, 110, 102] = false := by decide
        have e2 : isNanText [43, 73, 110, 102] = false := by decide
        have e3 : isInfText (splitSign [43, 73, 110, 102]).2 = true := by decide
        have e4 : (splitSign [43, 73, 110, 102]).1 = false := by decide
        simp [parseFloat, e1, e2, e3, e4]
      · have e1 : exoticText [45, 73, 110, 102] = false := by decide
        have e2 : isNanText [45, 73, 110, 102] = false := by decide
        have e3 : isInfText (splitSign [45, 73, 110, 102]).2 = true := by decide
        have e4 : (splitSign [45, 73, 110, 102]).1 = true := by decide
        simp [parseFloat, e1, e2, e3, e4]
    · simp only [h2, if_false]
      have hlt : m < floatInf p w := by omega
      obtain ⟨c, hc1, hc2⟩ := finiteText_read hK hlt
      obtain ⟨d, rest, hd, hdig⟩ := finiteText_head p w m
      have hpl := finiteText_plain p w m
      have hx := plain_not_exotic hpl
      have hsp := digit_not_special (cs := rest) hdig
      have hss := splitSign_digit (cs := rest) hdig
      cases neg
      · rw [hd] at hx
        simp only [Bool.false_eq_true, if_false]
        simp only [parseFloat, hx, hd, hss, hsp.1, hsp.2, Bool.false_eq_true, if_false]
        rw [hd] at hc1
        simp [hc1, hc2, hlt]
      · have hx' : exoticText (45 :: finiteText p w m) = false := by
          apply plain_not_exotic
          intro c hc
          simp only [List.mem_cons] at hc
          rcases hc with rfl | hc
          · exact .inr (.inr (.inr (.inr rfl)))
          · exact hpl c hc
        have hss' : splitSign (45 :: finiteText p w m) = (true, finiteText p w m) := by
          simp [splitSign]
        have hn : isNanText (45 :: finiteText p w m) = false := by
          have : asciiLower 45 = 45 := by decide
          simp [isNanText, this]
        simp only [if_true, parseFloat, hx', hss', hn, Bool.false_eq_true, if_false]
        rw [hd] at hc1 ⊢
        simp [hsp.2, hc1, hc2, hlt]

theorem parse32_fmt32 (other : GoString → Option (Bool × Nat)) (b : UInt32) :
    parse32 other (fmt32 b) = some (if f32NaN b then 0x7FC00000 else b) := by
  unfold parse32 fmt32
  rw [parse_format (by decide)]
  have hlt := b.toNat_lt
  have hi : floatInf 23 8 = 2139095040 := by decide
  have hn : (floatInf 23 8 < b.toNat % 2 ^ 31) ↔ f32NaN b = true := by
    simp only [hi, f32NaN, decide_eq_true_eq]
  by_cases h : f32NaN b = true
  · rw [if_pos (hn.2 h)]; simp [h, joinSign]
  · rw [if_neg (fun x => h (hn.1 x))]
    simp only [Option.map_some, h, joinSign, decide_eq_true_eq, Option.some.injEq]
    apply UInt32.toNat.inj
    simp only [UInt32.toNat_ofNat', Bool.false_eq_true, if_false]
    split <;> omega

theorem parse64_fmt64 (other : GoString → Option (Bool × Nat)) (b : UInt64) :
    parse64 other (fmt64 b) = some (if f64NaN b then 0x7FF8000000000001 else b) := by
  unfold parse64 fmt64
  rw [parse_format (by decide)]
  have hlt := b.toNat_lt
  have hi : floatInf 52 11 = 9218868437227405312 := by decide
  have hn : (floatInf 52 11 < b.toNat % 2 ^ 63) ↔ f64NaN b = true := by
    simp only [hi, f64NaN, decide_eq_true_eq]
  by_cases h : f64NaN b = true
  · rw [if_pos (hn.2 h)]; simp [h, joinSign]
  · rw [if_neg (fun x => h (hn.1 x))]
    simp only [Option.map_some, h, joinSign, decide_eq_true_eq, Option.some.injEq]
    apply UInt64.toNat.inj
    simp only [UInt64.toNat_ofNat', Bool.false_eq_true, if_false]
    split <;> omega

end Willow

namespace Willow
open Spec

/-! ### Rounding is to the nearest number -/

theorem roundNE_nearest {n d : Nat} (hd : 0 < d) (k : Nat) :
    ((roundNE n d : Int) * d - n).natAbs ≤ ((k : Int) * d - n).natAbs := by
  have h1 := Nat.div_add_mod n d
  have h2 := Nat.mod_lt n hd
  have h3 : ∀ a b : Nat, a ≤ b → a * d ≤ b * d := fun a b h => Nat.mul_le_mul_right d h
  have h4 : (n / d + 1) * d = n / d * d + d := by rw [Nat.add_mul]; simp
  rw [Nat.mul_comm] at h1
  have hk : k ≤ n / d ∨ n / d + 1 ≤ k := by omega
  have c1 : ((k : Int) * d) = ((k * d : Nat) : Int) := by simp
  have c2 : ((roundNE n d : Int) * d) = ((roundNE n d * d : Nat) : Int) := by simp
  rw [c1, c2]
  have hr : (roundNE n d = n / d ∧ 2 * (n % d) ≤ d) ∨ (roundNE n d = n / d + 1 ∧ d ≤ 2 * (n % d)) := by
    unfold roundNE
    split
    · exact .inl ⟨rfl, by omega⟩
    · split
      · exact .inr ⟨rfl, by omega⟩
      · split
        · exact .inl ⟨rfl, by omega⟩
        · exact .inr ⟨rfl, by omega⟩
  rcases hr with ⟨hr, ht⟩ | ⟨hr, ht⟩ <;> rw [hr] <;> rcases hk with hk | hk <;> have := h3 _ _ hk <;> omega

/-- With exponent `e`, mantissas between `2^p` and `2^(p+1)` (from 0 when `e = 0`) stand for themselves times `2^e`. -/
theorem magnitude_of {p e r : Nat} (h1 : r ≤ 2 ^ (p + 1)) (h2 : e = 0 ∨ 2 ^ p ≤ r) : magnitude p (e * 2 ^ p + r) = r * 2 ^ e := by
  have hp : 0 < 2 ^ p := Nat.two_pow_pos p
  rw [Nat.pow_succ] at h1
  have base : ∀ q t : Nat, t < 2 ^ p → magnitude p (q * 2 ^ p + t) = if q = 0 then t else (2 ^ p + t) * 2 ^ (q - 1) := by
    intro q t ht
    have d1 : (q * 2 ^ p + t) / 2 ^ p = q := by
      rw [Nat.mul_comm, Nat.mul_add_div hp, Nat.div_eq_of_lt ht]; rfl
    have d2 : (q * 2 ^ p + t) % 2 ^ p = t := by
      rw [Nat.mul_comm, Nat.mul_add_mod, Nat.mod_eq_of_lt ht]
    simp only [magnitude, expField, fracField, d1, d2]
  by_cases ha : r < 2 ^ p
  · have he : e = 0 := by omega
    subst he
    rw [base 0 r ha]; simp
  · by_cases hb : r = 2 ^ p * 2
    · have : e * 2 ^ p + r = (e + 2) * 2 ^ p + 0 := by rw [hb, Nat.add_mul]; omega
      rw [this, base _ 0 hp, hb]
      simp [Nat.pow_succ, Nat.mul_assoc, Nat.mul_comm, Nat.mul_left_comm]
    · have : e * 2 ^ p + r = (e + 1) * 2 ^ p + (r - 2 ^ p) := by rw [Nat.add_mul]; omega
      rw [this, base _ _ (by omega)]
      simp only [Nat.add_one_ne_zero, if_false, Nat.add_sub_cancel]
      congr 1; omega

/-- Large magnitudes are multiples of a large power of two. -/
theorem magnitude_mult {p e m : Nat} (h : 2 ^ (p + e) ≤ magnitude p m) : ∃ k, magnitude p m = k * 2 ^ e := by
  have hp : 0 < 2 ^ p := Nat.two_pow_pos p
  have hlt := Nat.mod_lt m hp
  by_cases h0 : m / 2 ^ p = 0
  · have hM : magnitude p m = m % 2 ^ p := by simp only [magnitude, expField, fracField, h0, if_true]
    have : 2 ^ p ≤ 2 ^ (p + e) := Nat.pow_le_pow_right (by decide) (by omega)
    omega
  · have hM : magnitude p m = (2 ^ p + m % 2 ^ p) * 2 ^ (m / 2 ^ p - 1) := by
      simp only [magnitude, expField, fracField, h0, if_false]
    have he : e ≤ m / 2 ^ p - 1 := by
      apply Classical.byContradiction
      intro hn
      have h1 : (2 ^ p + m % 2 ^ p) * 2 ^ (m / 2 ^ p - 1) < 2 ^ (p + 1) * 2 ^ (m / 2 ^ p - 1) :=
        Nat.mul_lt_mul_of_pos_right (by rw [Nat.pow_succ]; omega) (Nat.two_pow_pos _)
      rw [← Nat.pow_add] at h1
      have h2 : 2 ^ (p + 1 + (m / 2 ^ p - 1)) ≤ 2 ^ (p + e) := Nat.pow_le_pow_right (by decide) (by
        generalize m / 2 ^ p - 1 = j at *; omega)
      omega
    refine ⟨(2 ^ p + m % 2 ^ p) * 2 ^ (m / 2 ^ p - 1 - e), ?_⟩
    rw [hM, Nat.mul_assoc, ← Nat.pow_add, Nat.sub_add_cancel he]

theorem roundNE_between {n d a b : Nat} (h1 : a ≤ n / d) (h2 : n / d + 1 ≤ b) : a ≤ roundNE n d ∧ roundNE n d ≤ b := by
  unfold roundNE
  split
  · omega
  · split
    · omega
    · split <;> omega

theorem roundPattern_magnitude {p n d : Nat} (hd : 0 < d) :
    magnitude p (roundPattern p n d) =
      roundNE n (d * 2 ^ (Nat.log2 (n / d) - p)) * 2 ^ (Nat.log2 (n / d) - p) := by
  have hE : 0 < d * 2 ^ (Nat.log2 (n / d) - p) := Nat.mul_pos hd (Nat.two_pow_pos _)
  have hq : n / (d * 2 ^ (Nat.log2 (n / d) - p)) = n / d / 2 ^ (Nat.log2 (n / d) - p) := (Nat.div_div_eq_div_mul _ _ _).symm
  unfold roundPattern
  by_cases h0 : n / d = 0
  · have hl : Nat.log2 (n / d) - p = 0 := by rw [h0]; simp
    have := roundNE_between (a := 0) (b := 2 ^ (p + 1)) (Nat.zero_le _) (by rw [hq, h0]; simp; exact Nat.two_pow_pos _)
    exact magnitude_of this.2 (.inl hl)
  · have hb : n / d < 2 ^ (Nat.log2 (n / d) + 1) := (Nat.log2_lt h0).1 (Nat.lt_succ_self _)
    have ha : 2 ^ Nat.log2 (n / d) ≤ n / d := (Nat.le_log2 h0).1 (Nat.le_refl _)
    generalize hg : Nat.log2 (n / d) = g at *
    by_cases hgp : g ≤ p
    · have hz : g - p = 0 := by omega
      have h1 : n / d < 2 ^ (p + 1) := Nat.lt_of_lt_of_le hb (Nat.pow_le_pow_right (by decide) (by omega))
      have := roundNE_between (a := 0) (b := 2 ^ (p + 1)) (Nat.zero_le _) (by rw [hq, hz, Nat.pow_zero, Nat.div_one]; exact h1)
      exact magnitude_of this.2 (.inl hz)
    · have h1 : 2 ^ p ≤ n / d / 2 ^ (g - p) := by
        rw [Nat.le_div_iff_mul_le (Nat.two_pow_pos _), ← Nat.pow_add]
        rwa [show p + (g - p) = g by omega]
      have h2 : n / d / 2 ^ (g - p) < 2 ^ (p + 1) := by
        rw [Nat.div_lt_iff_lt_mul (Nat.two_pow_pos _), ← Nat.pow_add]
        rwa [show p + 1 + (g - p) = g + 1 by omega]
      have := roundNE_between (a := 2 ^ p) (b := 2 ^ (p + 1)) (by rw [hq]; exact h1) (by rw [hq]; exact h2)
      exact magnitude_of this.2 (.inr this.1)

theorem roundPattern_nearest {p n d : Nat} (hd : 0 < d) (m' : Nat) :
    ((magnitude p (roundPattern p n d) : Int) * d - n).natAbs ≤ ((magnitude p m' : Int) * d - n).natAbs := by
  rw [roundPattern_magnitude hd]
  have hE : 0 < d * 2 ^ (Nat.log2 (n / d) - p) := Nat.mul_pos hd (Nat.two_pow_pos _)
  have hn := fun k => roundNE_nearest (n := n) hE k
  have e1 : ∀ k : Nat, ((k * 2 ^ (Nat.log2 (n / d) - p) : Nat) : Int) * d = (k : Int) * ((d * 2 ^ (Nat.log2 (n / d) - p) : Nat) : Int) := by
    intro k
    rw [Int.natCast_mul, Int.natCast_mul, Int.mul_assoc, Int.mul_comm ((2 ^ _ : Nat) : Int) (d : Int)]
  rw [e1]
  by_cases h0 : Nat.log2 (n / d) - p = 0
  · have := hn (magnitude p m')
    rw [h0] at this ⊢
    simpa using this
  · by_cases hbig : 2 ^ (p + (Nat.log2 (n / d) - p)) ≤ magnitude p m'
    · obtain ⟨k, hk⟩ := magnitude_mult hbig
      rw [hk, e1]
      exact hn k
    · refine Nat.le_trans (hn (2 ^ p)) ?_
      rw [← e1, ← Nat.pow_add]
      have hne : n / d ≠ 0 := by intro hz; rw [hz] at h0; simp at h0
      have ha : 2 ^ Nat.log2 (n / d) ≤ n / d := (Nat.le_log2 hne).1 (Nat.le_refl _)
      rw [show p + (Nat.log2 (n / d) - p) = Nat.log2 (n / d) by omega] at hbig ⊢
      have h1 : 2 ^ Nat.log2 (n / d) * d ≤ n := (Nat.le_div_iff_mul_le hd).1 ha
      have h2 : magnitude p m' * d ≤ 2 ^ Nat.log2 (n / d) * d := Nat.mul_le_mul_right d (by omega)
      have c1 : ((2 ^ Nat.log2 (n / d) : Nat) : Int) * d = ((2 ^ Nat.log2 (n / d) * d : Nat) : Int) := by rw [Int.natCast_mul]
      have c2 : ((magnitude p m' : Nat) : Int) * d = ((magnitude p m' * d : Nat) : Int) := by rw [Int.natCast_mul]
      rw [c1, c2]
      omega

theorem decimalPattern_nearest (p w D : Nat) (E : Int) : Nearest p (floatUnit p w) D E (decimalPattern p w D E) := by
  intro m'
  have h := roundPattern_nearest (p := p) (n := D * 10 ^ E.toNat * 2 ^ floatUnit p w) (d := 10 ^ (-E).toNat)
    (Nat.pow_pos (by decide)) m'
  simpa [decimalPattern] using h

/-! ### What an accepted text looks like -/

theorem byte_digit {c : UInt8} (h : 48 ≤ c.toNat ∧ c.toNat ≤ 57) : UInt8.ofNat (48 + (c.toNat - 48)) = c := by
  have : 48 + (c.toNat - 48) = c.toNat := by omega
  rw [this, UInt8.ofNat_toNat]

theorem readMant_dot (s : GoString) : ∀ (acc f : Nat) (dg : Bool) (r : GoString), ∃ fp : List Nat, (∀ d ∈ fp, d < 10) ∧
    s = digitBytes fp ++ (readMant s ⟨acc, f, true, dg, r⟩).rest ∧
    (readMant s ⟨acc, f, true, dg, r⟩).val = fp.foldl (fun acc d => acc * 10 + d) acc ∧
    (readMant s ⟨acc, f, true, dg, r⟩).frac = f + fp.length ∧
    ((readMant s ⟨acc, f, true, dg, r⟩).digit = true ↔ dg = true ∨ fp ≠ []) := by
  induction s with
  | nil => intro acc f dg r; exact ⟨[], by simp, by simp [readMant, digitBytes], by simp [readMant], by simp [readMant], by simp [readMant]⟩
  | cons c cs ih =>
    intro acc f dg r
    by_cases hc : 48 ≤ c.toNat ∧ c.toNat ≤ 57
    · obtain ⟨fp, h1, h2, h3, h4, h5⟩ := ih (acc * 10 + (c.toNat - 48)) (f + 1) true r
      refine ⟨(c.toNat - 48) :: fp, ?_, ?_, ?_, ?_, ?_⟩
      · intro d hd
        simp only [List.mem_cons] at hd
        rcases hd with rfl | hd
        · omega
        · exact h1 d hd
      · simp only [readMant, hc, and_self, if_true, digitBytes, List.map_cons, byte_digit hc, List.cons_append]
        congr 1
      · simp only [readMant, hc, and_self, if_true, List.foldl_cons]; exact h3
      · simp only [readMant, hc, and_self, if_true, List.length_cons, h4]; omega
      · simp only [readMant, hc, and_self, if_true]
        constructor
        · intro _; exact .inr (by simp)
        · intro _; exact h5.2 (.inl rfl)
    · refine ⟨[], by simp, ?_, ?_, ?_, ?_⟩ <;> simp [readMant, hc, digitBytes]

theorem readMant_nodot (s : GoString) : ∀ (acc : Nat) (dg : Bool) (r : GoString), ∃ (ip : List Nat) (dot : Bool) (fp : List Nat),
    (∀ d ∈ ip ++ fp, d < 10) ∧ (dot = false → fp = []) ∧
    s = digitBytes ip ++ ((if dot then [46] else []) ++ (digitBytes fp ++ (readMant s ⟨acc, 0, false, dg, r⟩).rest)) ∧
    (readMant s ⟨acc, 0, false, dg, r⟩).val = (ip ++ fp).foldl (fun acc d => acc * 10 + d) acc ∧
    (readMant s ⟨acc, 0, false, dg, r⟩).frac = fp.length ∧
    ((readMant s ⟨acc, 0, false, dg, r⟩).digit = true ↔ dg = true ∨ ip ++ fp ≠ []) := by
  induction s with
  | nil => intro acc dg r; exact ⟨[], false, [], by simp, by simp, by simp [readMant, digitBytes], by simp [readMant], by simp [readMant], by simp [readMant]⟩
  | cons c cs ih =>
    intro acc dg r
    by_cases hc : 48 ≤ c.toNat ∧ c.toNat ≤ 57
    · obtain ⟨ip, dot, fp, h1, h2, h3, h4, h5, h6⟩ := ih (acc * 10 + (c.toNat - 48)) true r
      refine ⟨(c.toNat - 48) :: ip, dot, fp, ?_, h2, ?_, ?_, ?_, ?_⟩
      · intro d hd
        simp only [List.cons_append, List.mem_cons] at hd
        rcases hd with rfl | hd
        · omega
        · exact h1 d hd
      · simp only [readMant, hc, and_self, if_true, Bool.false_eq_true, if_false, digitBytes, List.map_cons, byte_digit hc, List.cons_append]
        congr 1
      · simp only [readMant, hc, and_self, if_true, Bool.false_eq_true, if_false, List.cons_append, List.foldl_cons]; exact h4
      · simp only [readMant, hc, and_self, if_true, Bool.false_eq_true, if_false, h5]
      · simp only [readMant, hc, and_self, if_true, Bool.false_eq_true, if_false]
        constructor
        · intro _; exact .inr (by simp)
        · intro _; exact h6.2 (.inl rfl)
    · by_cases hdot : c = 46
      · subst hdot
        obtain ⟨fp, h1, h2, h3, h4, h5⟩ := readMant_dot cs acc 0 dg r
        have e : readMant (46 :: cs) ⟨acc, 0, false, dg, r⟩ = readMant cs ⟨acc, 0, true, dg, r⟩ := by
          conv => lhs; unfold readMant
          simp
        rw [e]
        refine ⟨[], true, fp, by simpa using h1, by simp, ?_, by simpa using h3, by simpa using h4, by simpa using h5⟩
        simp only [digitBytes, List.map_nil, List.nil_append, if_true, List.cons_append]
        congr 1
      · refine ⟨[], false, [], by simp, by simp, ?_, ?_, ?_, ?_⟩ <;> simp [readMant, hc, hdot, digitBytes]

theorem foldl_ge (ds : List Nat) : ∀ acc : Nat, acc ≤ ds.foldl (fun acc d => acc * 10 + d) acc := by
  induction ds with
  | nil => intro acc; simp
  | cons d ds ih => intro acc; have := ih (acc * 10 + d); simp only [List.foldl_cons]; omega

theorem readExpDigits_denotes {s : GoString} {e v : Nat} (h : readExpDigits s e = some v) : ∃ ds : List Nat, (∀ d ∈ ds, d < 10) ∧
    s = digitBytes ds ∧ (ds.foldl (fun acc d => acc * 10 + d) e < 100000 → v = ds.foldl (fun acc d => acc * 10 + d) e) := by
  induction s generalizing e with
  | nil => simp [readExpDigits] at h; exact ⟨[], by simp, by simp [digitBytes], by simp [h]⟩
  | cons c cs ih =>
    simp only [readExpDigits] at h
    split at h
    · rename_i hc
      obtain ⟨ds, h1, h2, h3⟩ := ih h
      refine ⟨(c.toNat - 48) :: ds, ?_, ?_, ?_⟩
      · intro d hd
        simp only [List.mem_cons] at hd
        rcases hd with rfl | hd
        · omega
        · exact h1 d hd
      · simp only [digitBytes, List.map_cons, byte_digit hc]; rw [h2]; rfl
      · simp only [List.foldl_cons]
        intro hlt
        have := foldl_ge ds (e * 10 + (c.toNat - 48))
        rw [if_pos (by omega)] at h3
        exact h3 hlt
    · simp at h

theorem splitSign_denotes (s : GoString) : ∃ sg : Option Bool, s = signBytes sg ++ (splitSign s).2 ∧ ((splitSign s).1 = true ↔ sg = some true) := by
  match s with
  | [] => exact ⟨none, by simp [splitSign, signBytes], by simp [splitSign]⟩
  | c :: cs =>
    by_cases h1 : c = 43
    · exact ⟨some false, by simp [splitSign, h1, signBytes], by simp [splitSign, h1]⟩
    · by_cases h2 : c = 45
      · exact ⟨some true, by simp [splitSign, h2, signBytes], by simp [splitSign, h2]⟩
      · exact ⟨none, by simp [splitSign, h1, h2, signBytes], by simp [splitSign, h1, h2]⟩

theorem lower_e {c : UInt8} (h : asciiLower c = 101) : c = 69 ∨ c = 101 := by
  unfold asciiLower at h
  split at h
  · rename_i hc
    left
    have := congrArg UInt8.toNat h
    apply UInt8.toNat.inj
    simp [UInt8.toNat_ofNat'] at this ⊢
    omega
  · exact .inr h

theorem readExp_denotes {s : GoString} {v : Int} (h : readExp s = some v) : ∃ ex : Option (Bool × Option Bool × List Nat),
    s = expBytes ex ∧ (∀ e, ex = some e → e.2.2 ≠ [] ∧ ∀ d ∈ e.2.2, d < 10) ∧
    (∀ x : Numeral, x.exp = ex → x.expAbs < 100000 → v = x.expValue) := by
  match s with
  | [] =>
    simp [readExp] at h
    refine ⟨none, rfl, by simp, ?_⟩
    intro x hx _
    simp [Numeral.expValue, hx, h]
  | c :: cs =>
    simp only [readExp] at h
    split at h
    · simp at h
    · rename_i hc
      split at h
      · simp at h
      · rename_i hne
        simp only [Option.map_eq_some_iff] at h
        obtain ⟨n, hn, rfl⟩ := h
        obtain ⟨ds, h1, h2, h3⟩ := readExpDigits_denotes hn
        obtain ⟨sg, hs1, hs2⟩ := splitSign_denotes cs
        have hc' := lower_e (Classical.not_not.1 hc)
        refine ⟨some (decide (c = 69), sg, ds), ?_, ?_, ?_⟩
        · simp only [expBytes]
          rw [← h2, ← hs1]
          rcases hc' with rfl | rfl <;> simp
        · intro e he
          simp only [Option.some.injEq] at he
          subst he
          refine ⟨?_, h1⟩
          intro hz
          simp only at hz
          rw [hz] at h2
          exact hne (by rw [h2]; rfl)
        · intro x hx hlt
          simp only [Numeral.expAbs, hx, hornerValue] at hlt
          have := h3 hlt
          simp only [Numeral.expValue, hx, hornerValue, hs2, ← this]

theorem readDecimal_denotes {s : GoString} {c : Nat × Int} (h : readDecimal (splitSign s).2 = some c) : ∃ x : Numeral, x.Ok ∧ s = x.text ∧
    ((splitSign s).1 = x.neg) ∧ c.1 = x.digits ∧ (x.expAbs < 100000 → c.2 = x.power) := by
  obtain ⟨sg, hs1, hs2⟩ := splitSign_denotes s
  unfold readDecimal finishDecimal at h
  obtain ⟨ip, dot, fp, h1, h2, h3, h4, h5, h6⟩ := readMant_nodot (splitSign s).2 0 false []
  split at h
  · simp at h
  · rename_i hd
    simp only [Option.map_eq_some_iff] at h
    obtain ⟨v, hv, rfl⟩ := h
    obtain ⟨ex, e1, e2, e3⟩ := readExp_denotes hv
    rw [e1] at h3
    refine ⟨⟨sg, ip, dot, fp, ex⟩, ⟨h1, ?_, h2, e2⟩, ?_, ?_, h4, ?_⟩
    · have := h6.1 (by simpa using hd)
      simpa using this
    · simp only [Numeral.text]
      rw [← h3, ← hs1]
    · simp only [Numeral.neg]
      cases hb : (splitSign s).1
      · have : sg ≠ some true := fun hz => by rw [hs2.2 hz] at hb; simp at hb
        simp [this]
      · simp [hs2.1 hb]
    · intro hlt
      simp only [Numeral.power, h5]
      rw [e3 ⟨sg, ip, dot, fp, ex⟩ rfl hlt]

theorem spelled_of_lower : ∀ {s w : GoString}, s.map asciiLower = w → Spelled s w
  | [], w, h => by subst h; trivial
  | c :: cs, w, h => by
    subst h
    refine ⟨?_, spelled_of_lower rfl⟩
    unfold asciiLower
    split
    · right; simp [UInt8.toNat_ofNat']; omega
    · exact .inl rfl

/-- An accepted plain text is "nan", an infinity, or a decimal numeral whose value is rounded to the nearest number. -/
theorem parseFloat_denotes {p w nan : Nat} {other : GoString → Option (Bool × Nat)} {s : GoString} {r : Bool × Nat}
    (hx : exoticText s = false) (h : parseFloat p w nan other s = some r) :
    (r = (false, nan) ∧ Spelled s nanWord) ∨
    (r.2 = floatInf p w ∧ ∃ sg body, s = signBytes sg ++ body ∧ (r.1 = true ↔ sg = some true) ∧ (Spelled body infWord ∨ Spelled body infinityWord)) ∨
      ∃ x : Numeral, x.Ok ∧ s = x.text ∧ r.1 = x.neg ∧ r.2 < floatInf p w ∧
        (x.expAbs < 100000 → Nearest p (floatUnit p w) x.digits x.power r.2) := by
  simp only [parseFloat, hx, Bool.false_eq_true, if_false] at h
  split at h
  · rename_i hn
    simp only [Option.some.injEq] at h
    refine .inl ⟨h.symm, spelled_of_lower ?_⟩
    simpa [isNanText, nanWord] using hn
  · split at h
    · rename_i hi
      simp only [Option.some.injEq] at h
      subst h
      obtain ⟨sg, hs1, hs2⟩ := splitSign_denotes s
      refine .inr (.inl ⟨rfl, sg, (splitSign s).2, hs1, hs2, ?_⟩)
      simp only [isInfText, Bool.or_eq_true, beq_iff_eq] at hi
      rcases hi with hi | hi
      · exact .inl (spelled_of_lower hi)
      · exact .inr (spelled_of_lower hi)
    · split at h
      · simp at h
      · rename_i c hc
        split at h
        · rename_i hlt
          simp only [Option.some.injEq] at h
          subst h
          obtain ⟨x, x1, x2, x3, x4, x5⟩ := readDecimal_denotes hc
          refine .inr (.inr ⟨x, x1, x2, x3, hlt, ?_⟩)
          intro he
          rw [← x4, ← x5 he]
          exact decimalPattern_nearest p w c.1 c.2
        · simp at h

end Willow
