import Verif.Spec.DataTypes
/-! Helper lemmas about key values: comparison. -/
namespace Willow
open Spec

theorem strLt_irrefl (a : GoString) : strLt a a = false := by
  induction a with
  | nil => rfl
  | cons x xs ih => simp [strLt, ih]

theorem strLt_trans : ∀ {a b c : GoString}, strLt a b = true → strLt b c = true → strLt a c = true := by
  intro a
  induction a with
  | nil => intro b c h1 h2; cases b <;> cases c <;> simp_all [strLt]
  | cons x xs ih =>
    intro b c h1 h2
    cases b with
    | nil => simp [strLt] at h1
    | cons y ys =>
      cases c with
      | nil => simp [strLt] at h2
      | cons z zs =>
        simp only [strLt] at *
        by_cases hxy : x < y
        · by_cases hyz : y < z
          · have : x < z := by rw [UInt8.lt_iff_toNat_lt] at *; omega
            simp [this]
          · by_cases hzy : z < y
            · simp [hyz, hzy] at h2
            · have : x < z := by rw [UInt8.lt_iff_toNat_lt] at *; omega
              simp [this]
        · by_cases hyx : y < x
          · simp [hxy, hyx] at h1
          · simp [hxy, hyx] at h1
            have hxe : x.toNat = y.toNat := by rw [UInt8.lt_iff_toNat_lt] at *; omega
            by_cases hyz : y < z
            · have : x < z := by rw [UInt8.lt_iff_toNat_lt] at *; omega
              simp [this]
            · by_cases hzy : z < y
              · simp [hyz, hzy] at h2
              · simp [hyz, hzy] at h2
                have h3 : ¬ x < z := by rw [UInt8.lt_iff_toNat_lt] at *; omega
                have h4 : ¬ z < x := by rw [UInt8.lt_iff_toNat_lt] at *; omega
                simp [h3, h4, ih h1 h2]

theorem strLt_total : ∀ {a b : GoString}, strLt a b = false → strLt b a = false → a = b := by
  intro a
  induction a with
  | nil => intro b h1 h2; cases b <;> simp_all [strLt]
  | cons x xs ih =>
    intro b h1 h2
    cases b with
    | nil => simp [strLt] at h2
    | cons y ys =>
      simp only [strLt] at *
      by_cases hxy : x < y
      · simp [hxy] at h1
      · by_cases hyx : y < x
        · simp [hyx] at h2
        · simp [hxy, hyx] at h1 h2
          have : x = y := by
            apply UInt8.toNat.inj; rw [UInt8.lt_iff_toNat_lt] at *; omega
          rw [this, ih h1 h2]

/-! ### Floats: the bit-pattern order is the order of the represented numbers -/

theorem magnitude_succ (p m : Nat) : magnitude p m < magnitude p (m + 1) := by
  have hp : 0 < 2 ^ p := Nat.two_pow_pos p
  have hdm := Nat.div_add_mod m (2 ^ p)
  have hlt := Nat.mod_lt m hp
  generalize hq : m / 2 ^ p = q at *
  generalize hr : m % 2 ^ p = r at *
  by_cases h : r + 1 < 2 ^ p
  · have e : m + 1 = 2 ^ p * q + (r + 1) := by omega
    have d1 : (m + 1) / 2 ^ p = q := by
      rw [e, Nat.mul_add_div hp, Nat.div_eq_of_lt h]; rfl
    have d2 : (m + 1) % 2 ^ p = r + 1 := by
      rw [e, Nat.mul_add_mod, Nat.mod_eq_of_lt h]
    simp only [magnitude, expField, fracField, hq, hr, d1, d2]
    split
    · omega
    · exact Nat.mul_lt_mul_of_pos_right (by omega) (Nat.two_pow_pos _)
  · have hr' : r + 1 = 2 ^ p := by omega
    have e : m + 1 = 2 ^ p * (q + 1) := by rw [Nat.mul_succ]; omega
    have d1 : (m + 1) / 2 ^ p = q + 1 := by rw [e, Nat.mul_div_cancel_left _ hp]
    have d2 : (m + 1) % 2 ^ p = 0 := by rw [e, Nat.mul_mod_right]
    simp only [magnitude, expField, fracField, hq, hr, d1, d2, Nat.add_one_ne_zero, if_false, Nat.add_sub_cancel, Nat.add_zero]
    split
    · next h0 => rw [h0]; omega
    · next h0 =>
      obtain ⟨q', rfl⟩ : ∃ q', q = q' + 1 := ⟨q - 1, by omega⟩
      rw [Nat.add_sub_cancel, Nat.pow_succ, Nat.mul_comm (2 ^ q') 2, ← Nat.mul_assoc]
      exact Nat.mul_lt_mul_of_pos_right (by omega) (Nat.two_pow_pos _)

theorem magnitude_lt {p a b : Nat} (h : a < b) : magnitude p a < magnitude p b := by
  induction b with
  | zero => omega
  | succ b ih =>
    rcases Nat.lt_succ_iff_lt_or_eq.1 h with h' | rfl
    · exact Nat.lt_trans (ih h') (magnitude_succ p b)
    · exact magnitude_succ p a

theorem magnitude_lt_iff {p a b : Nat} : magnitude p a < magnitude p b ↔ a < b := by
  constructor
  · intro h
    rcases Nat.lt_trichotomy a b with h' | rfl | h'
    · exact h'
    · omega
    · have := magnitude_lt (p := p) h'; omega
  · exact magnitude_lt

theorem magnitude_zero (p : Nat) : magnitude p 0 = 0 := by simp [magnitude, expField, fracField]

theorem signed_lt_iff {p : Nat} {a b : Nat} {sa sb : Bool} :
    ((if sa then -(magnitude p a : Int) else (magnitude p a : Int)) < (if sb then -(magnitude p b : Int) else (magnitude p b : Int))) ↔
    ((if sa then -(a : Int) else (a : Int)) < (if sb then -(b : Int) else (b : Int))) := by
  have h1 := magnitude_lt_iff (p := p) (a := a) (b := b)
  have h2 := magnitude_lt_iff (p := p) (a := b) (b := a)
  have h3 := magnitude_lt_iff (p := p) (a := 0) (b := a)
  have h4 := magnitude_lt_iff (p := p) (a := 0) (b := b)
  rw [magnitude_zero] at h3 h4
  cases sa <;> cases sb <;> simp <;> omega

theorem f32Ord_lt_iff (a b : UInt32) : f32Ord a < f32Ord b ↔ f32Value a < f32Value b := by
  have ha := a.toNat_lt; have hb := b.toNat_lt
  have h := signed_lt_iff (p := 23) (a := a.toNat % 2 ^ 31) (b := b.toNat % 2 ^ 31)
    (sa := decide (a.toNat / 2 ^ 31 = 1)) (sb := decide (b.toNat / 2 ^ 31 = 1))
  simp only [decide_eq_true_eq] at h
  simp only [f32Value, h, f32Ord]
  have q : ∀ n : Nat, n < 2 ^ 32 → (if n ≥ 2147483648 then -((n % 2147483648 : Nat) : Int) else (n : Int)) =
      if n / 2 ^ 31 = 1 then -((n % 2 ^ 31 : Nat) : Int) else ((n % 2 ^ 31 : Nat) : Int) := by
    intro n hn; split <;> split <;> omega
  rw [q _ ha, q _ hb]

theorem f64Ord_lt_iff (a b : UInt64) : f64Ord a < f64Ord b ↔ f64Value a < f64Value b := by
  have ha := a.toNat_lt; have hb := b.toNat_lt
  have h := signed_lt_iff (p := 52) (a := a.toNat % 2 ^ 63) (b := b.toNat % 2 ^ 63)
    (sa := decide (a.toNat / 2 ^ 63 = 1)) (sb := decide (b.toNat / 2 ^ 63 = 1))
  simp only [decide_eq_true_eq] at h
  simp only [f64Value, h, f64Ord]
  have q : ∀ n : Nat, n < 2 ^ 64 → (if n ≥ 9223372036854775808 then -((n % 9223372036854775808 : Nat) : Int) else (n : Int)) =
      if n / 2 ^ 63 = 1 then -((n % 2 ^ 63 : Nat) : Int) else ((n % 2 ^ 63 : Nat) : Int) := by
    intro n hn; split <;> split <;> omega
  rw [q _ ha, q _ hb]

theorem f32Ord_eq_iff (a b : UInt32) : f32Ord a = f32Ord b ↔ f32Value a = f32Value b := by
  have h1 := f32Ord_lt_iff a b; have h2 := f32Ord_lt_iff b a; omega
theorem f64Ord_eq_iff (a b : UInt64) : f64Ord a = f64Ord b ↔ f64Value a = f64Value b := by
  have h1 := f64Ord_lt_iff a b; have h2 := f64Ord_lt_iff b a; omega

theorem f32NaN_iff (b : UInt32) : f32NaN b = true ↔ f32IsNaN b := by
  have h := b.toNat_lt
  simp only [f32NaN, f32IsNaN, expField, fracField, decide_eq_true_eq]
  omega
theorem f64NaN_iff (b : UInt64) : f64NaN b = true ↔ f64IsNaN b := by
  have h := b.toNat_lt
  simp only [f64NaN, f64IsNaN, expField, fracField, decide_eq_true_eq]
  omega

/-- Numeric part of a payload. -/
def Data.num : Data → Int
  | .uint8 v => v.toNat | .uint16 v => v.toNat | .uint32 v => v.toNat | .uint64 v => v.toNat | .uint v => v.toNat
  | .int8 v => v.toInt | .int16 v => v.toInt | .int32 v => v.toInt | .int64 v => v.toInt | .int v => v.toInt
  | .float32 b => f32Ord b | .float64 b => f64Ord b
  | _ => 0
/-- String part of a payload. -/
def Data.str : Data → GoString
  | .string s => s
  | _ => []

/-- The order the comparison implements: by type code, number, bytes. -/
def rankLt (a b : EncapsulatedValue) : Prop :=
  a.type < b.type ∨ (a.type = b.type ∧ (a.data.num < b.data.num ∨ (a.data.num = b.data.num ∧ strLt a.data.str b.data.str = true)))

instance (a b) : Decidable (rankLt a b) := by unfold rankLt; infer_instance

theorem lessMatchType_eq {a b : EncapsulatedValue} (ha : WellFormed a) (hb : WellFormed b)
    (na : ¬ IsNaN a) (nb : ¬ IsNaN b) :
    EncapsulatedValue.lessMatchType a b = some (decide (rankLt a b)) := by
  obtain ⟨ta, da⟩ := a
  obtain ⟨tb, db⟩ := b
  simp only [WellFormed] at ha hb
  by_cases h1 : ta < tb
  · simp [EncapsulatedValue.lessMatchType, DataType.lessMatchType, rankLt, h1]
  · by_cases h2 : tb < ta
    · have h3 : ta ≠ tb := by omega
      simp [EncapsulatedValue.lessMatchType, DataType.lessMatchType, rankLt, h1, h2, h3]
    · have h3 : ta = tb := by omega
      subst h3
      simp only [EncapsulatedValue.lessMatchType, DataType.lessMatchType, rankLt, h1, decide_false, Bool.false_eq_true, if_false, true_and, false_or]
      cases da <;> simp [codeOf] at ha <;> subst ha <;> cases db <;> simp [codeOf] at hb <;>
        simp [EncapsulatedValue.lessValueMatchType, DataType.uint8, DataType.uint16, DataType.uint32, DataType.uint64,
          DataType.uint, DataType.int8, DataType.int16, DataType.int32, DataType.int64, DataType.int, DataType.float32,
          DataType.float64, DataType.string, DataType.any, Data.num, Data.str, strLt, UInt8.lt_iff_toNat_lt,
          UInt16.lt_iff_toNat_lt, UInt32.lt_iff_toNat_lt, UInt64.lt_iff_toNat_lt, Int8.lt_iff_toInt_lt, Int16.lt_iff_toInt_lt,
          Int32.lt_iff_toInt_lt, Int64.lt_iff_toInt_lt, f32Lt, f64Lt]
      · intro h; simp [IsNaN, ← f32NaN_iff] at na nb; simp [na, nb]
      · intro h; simp [IsNaN, ← f64NaN_iff] at na nb; simp [na, nb]

theorem rankLt_irrefl (a) : ¬ rankLt a a := by
  simp [rankLt, strLt_irrefl]

theorem rankLt_trans {a b c} (h1 : rankLt a b) (h2 : rankLt b c) : rankLt a c := by
  rcases h1 with h1 | ⟨e1, h1 | ⟨f1, h1⟩⟩ <;> rcases h2 with h2 | ⟨e2, h2 | ⟨f2, h2⟩⟩
  · left; omega
  · left; omega
  · left; omega
  · left; omega
  · right; exact ⟨by omega, by left; omega⟩
  · right; exact ⟨by omega, by left; omega⟩
  · left; omega
  · right; exact ⟨by omega, by left; omega⟩
  · right; exact ⟨by omega, Or.inr ⟨by omega, strLt_trans h1 h2⟩⟩

theorem rankLt_incomp {a b} (h1 : ¬ rankLt a b) (h2 : ¬ rankLt b a) :
    a.type = b.type ∧ a.data.num = b.data.num ∧ a.data.str = b.data.str := by
  simp only [rankLt, not_or, not_and] at h1 h2
  have ht : a.type = b.type := by omega
  have hn : a.data.num = b.data.num := by
    have := (h1.2 ht).1; have := (h2.2 ht.symm).1; omega
  refine ⟨ht, hn, strLt_total ?_ ?_⟩
  · have := (h1.2 ht).2 hn; simpa using this
  · have := (h2.2 ht.symm).2 hn.symm; simpa using this

theorem rankLt_of_eq {a b c : EncapsulatedValue} (h : a.type = b.type ∧ a.data.num = b.data.num ∧ a.data.str = b.data.str) :
    (rankLt a c ↔ rankLt b c) ∧ (rankLt c a ↔ rankLt c b) := by
  simp [rankLt, h.1, h.2.1, h.2.2]

theorem rankLt_weak {a b c} (h : rankLt a b) : rankLt a c ∨ rankLt c b := by
  by_cases h1 : rankLt a c
  · exact .inl h1
  · by_cases h2 : rankLt c a
    · exact .inr (rankLt_trans h2 h)
    · exact .inr ((rankLt_of_eq (rankLt_incomp h1 h2)).1.1 h)

theorem sameValue_iff {a b : EncapsulatedValue} (ha : WellFormed a) (hb : WellFormed b) :
    SameValue a b ↔ (a.type = b.type ∧ a.data.num = b.data.num ∧ a.data.str = b.data.str) := by
  obtain ⟨ta, da⟩ := a
  obtain ⟨tb, db⟩ := b
  simp only [WellFormed] at ha hb
  simp only [SameValue, ← f32Ord_eq_iff, ← f64Ord_eq_iff]
  constructor
  · rintro ⟨h1, h2⟩
    refine ⟨h1, ?_⟩
    cases da <;> cases db <;> simp_all [Data.num, Data.str]
  · rintro ⟨h1, h2, h3⟩
    subst h1
    refine ⟨rfl, ?_⟩
    cases da <;> simp [codeOf] at ha <;> subst ha <;> cases db <;> simp [codeOf] at hb <;>
      simp_all [Data.num, Data.str, ← UInt8.toNat_inj, ← UInt16.toNat_inj, ← UInt32.toNat_inj, ← UInt64.toNat_inj,
        Int8.toInt_inj, Int16.toInt_inj, Int32.toInt_inj, Int64.toInt_inj]
    all_goals omega

/-! ### strconv -/

theorem digit_toNat {n : Nat} (h : n < 10) : (UInt8.ofNat (48 + n)).toNat = 48 + n := by
  simp [UInt8.toNat_ofNat']; omega

theorem digitsVal_digitsAux (fuel n : Nat) (acc : GoString) (h : n ≤ fuel) :
    digitsVal (digitsAux fuel n acc) 0 = digitsVal acc n := by
  induction fuel generalizing n acc with
  | zero =>
    have : n = 0 := by omega
    subst this
    simp [digitsAux, digitsVal]
  | succ f ih =>
    simp only [digitsAux]
    by_cases h10 : n < 10
    · simp only [h10, if_true, digitsVal, digit_toNat h10]
      have : 48 ≤ 48 + n ∧ 48 + n ≤ 57 := by omega
      simp [this]
    · simp only [h10, if_false]
      rw [ih (n / 10) _ (by omega)]
      have hm : n % 10 < 10 := Nat.mod_lt _ (by omega)
      simp only [digitsVal, digit_toNat hm]
      have : 48 ≤ 48 + n % 10 ∧ 48 + n % 10 ≤ 57 := by omega
      simp only [this, and_self, if_true]
      congr 1; omega

theorem digitsAux_head (fuel n : Nat) (acc : GoString) :
    ∃ d cs, d < 10 ∧ digitsAux fuel n acc = UInt8.ofNat (48 + d) :: cs := by
  induction fuel generalizing n acc with
  | zero => exact ⟨n % 10, acc, Nat.mod_lt _ (by omega), rfl⟩
  | succ f ih =>
    simp only [digitsAux]
    by_cases h10 : n < 10
    · simp only [h10, if_true]; exact ⟨n, acc, h10, rfl⟩
    · simp only [h10, if_false]; exact ih _ _

theorem parseUint_formatUint {n bits : Nat} (h : n < 2 ^ bits) : parseUint (formatUint n) bits = some n := by
  obtain ⟨d, cs, _, he⟩ := digitsAux_head n n []
  have hv := digitsVal_digitsAux n n [] (Nat.le_refl _)
  simp only [digitsVal] at hv
  have hne : digitsAux n n [] ≠ [] := by rw [he]; simp
  simp [parseUint, formatUint, hne, hv, h]

theorem parseInt_formatInt {n : Int} {bits : Nat} (hb : 1 ≤ bits) (hb' : bits ≤ 64)
    (h1 : -(2 ^ (bits - 1) : Int) ≤ n) (h2 : n < 2 ^ (bits - 1)) : parseInt (formatInt n) bits = some n := by
  have hpow : (2 : Nat) ^ (bits - 1) < 2 ^ 64 := Nat.pow_lt_pow_right (by omega) (by omega)
  have hcast : ((2 ^ (bits - 1) : Nat) : Int) = 2 ^ (bits - 1) := by simp
  by_cases hn : n < 0
  · have hle : n.natAbs ≤ 2 ^ (bits - 1) := by omega
    simp only [formatInt, hn, if_true, parseInt, splitSign]
    simp only [show ¬ ((45 : UInt8) = 43) by decide, if_false, if_true]
    rw [parseUint_formatUint (by omega)]
    simp only [hle, if_true]
    congr 1; omega
  · have hlt : n.natAbs < 2 ^ (bits - 1) := by omega
    simp only [formatInt, hn, if_false, parseInt]
    obtain ⟨d, cs, hd, he⟩ := digitsAux_head n.natAbs n.natAbs []
    have hp := parseUint_formatUint (n := n.natAbs) (bits := 64) (by omega)
    have h43 : UInt8.ofNat (48 + d) ≠ 43 := by
      intro hc; have := congrArg UInt8.toNat hc; rw [digit_toNat hd] at this; simp at this; omega
    have h45 : UInt8.ofNat (48 + d) ≠ 45 := by
      intro hc; have := congrArg UInt8.toNat hc; rw [digit_toNat hd] at this; simp at this; omega
    have hf : formatUint n.natAbs = UInt8.ofNat (48 + d) :: cs := he
    rw [hf] at hp ⊢
    simp only [splitSign, h43, h45, if_false, hp, hlt, if_true, Bool.false_eq_true]
    congr 1; omega

theorem digitsVal_denotes {s : GoString} {acc n : Nat} (h : digitsVal s acc = some n) :
    ∃ ds : List Nat, (∀ d ∈ ds, d < 10) ∧ s = ds.map (fun d => UInt8.ofNat (48 + d)) ∧
      ds.foldl (fun acc d => acc * 10 + d) acc = n := by
  induction s generalizing acc with
  | nil => simp [digitsVal] at h; exact ⟨[], by simp, rfl, h⟩
  | cons c cs ih =>
    simp only [digitsVal] at h
    split at h
    · rename_i hc
      obtain ⟨ds, h1, h2, h3⟩ := ih h
      refine ⟨(c.toNat - 48) :: ds, ?_, ?_, h3⟩
      · intro d hd; simp at hd; rcases hd with rfl | hd; omega; exact h1 d hd
      · simp only [List.map_cons, ← h2]
        have : 48 + (c.toNat - 48) = c.toNat := by omega
        rw [this, UInt8.ofNat_toNat]
    · simp at h

theorem parseUint_denotes {s : GoString} {bits n : Nat} (h : parseUint s bits = some n) :
    DenotesNat s n ∧ n < 2 ^ bits := by
  simp only [parseUint] at h
  split at h
  · simp at h
  · rename_i hne
    split at h
    · simp at h
    · rename_i m hm
      split at h
      · rename_i hlt
        simp at h; subst h
        obtain ⟨ds, h1, h2, h3⟩ := digitsVal_denotes hm
        refine ⟨⟨ds, ⟨?_, h1, h2⟩, h3⟩, hlt⟩
        intro hd; subst hd; simp at h2; exact hne h2
      · simp at h

theorem parseInt_denotes {s : GoString} {bits : Nat} {n : Int} (h : parseInt s bits = some n) :
    DenotesInt s n ∧ -(2 ^ (bits - 1) : Int) ≤ n ∧ n < 2 ^ (bits - 1) := by
  have hcast : ((2 ^ (bits - 1) : Nat) : Int) = 2 ^ (bits - 1) := by simp
  have hpos : (0 : Int) < 2 ^ (bits - 1) := by rw [← hcast]; exact_mod_cast Nat.pow_pos (by omega)
  simp only [parseInt] at h
  split at h
  · simp at h
  · rename_i m hm
    obtain ⟨hd, _⟩ := parseUint_denotes hm
    cases s with
    | nil =>
      simp only [splitSign] at hm hd
      simp [parseUint] at hm
    | cons c rest =>
      simp only [splitSign] at h hd
      by_cases h43 : c = 43
      · subst h43
        simp at h hd
        exact ⟨.inr (.inl ⟨rest, m, rfl, hd, by omega⟩), by omega, by omega⟩
      · by_cases h45 : c = 45
        · subst h45
          simp at h hd
          exact ⟨.inr (.inr ⟨rest, m, rfl, hd, by omega⟩), by omega, by omega⟩
        · simp [h43, h45] at h hd
          exact ⟨.inl ⟨m, hd, by omega⟩, by omega, by omega⟩

end Willow
