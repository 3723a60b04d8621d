import Verif.Proofs.DataTypes
/-!
Property theorems about key values: C01–C05.
-/
namespace Willow.Props
open Willow Willow.Spec

/-! ## C01 – the comparison is a strict total order on non-NaN values -/

/-- C01.  On well-formed non-NaN values the strict comparison never crashes and is irreflexive,
asymmetric, transitive, total up to equality of values; equal values are never ordered; the type
decides first, and `any` is the greatest value. -/
theorem C01_strict_total_order (a b c : EncapsulatedValue)
    (wa : WellFormed a) (wb : WellFormed b) (wc : WellFormed c)
    (na : ¬ IsNaN a) (nb : ¬ IsNaN b) (nc : ¬ IsNaN c) :
    NotBefore a a ∧
    (Before a b ∨ NotBefore a b) ∧
    (Before a b → NotBefore b a) ∧
    (Before a b → Before b c → Before a c) ∧
    (NotBefore a b → NotBefore b a → SameValue a b) ∧
    (SameValue a b → NotBefore a b ∧ NotBefore b a) ∧
    (a.type < b.type → Before a b) ∧
    (b.type = DataType.any → a.type ≠ DataType.any → Before a b) := by
  have e := fun x y wx wy nx ny => lessMatchType_eq (a := x) (b := y) wx wy nx ny
  simp only [Before, NotBefore, e a a wa wa na na, e a b wa wb na nb, e b a wb wa nb na, e b c wb wc nb nc,
    e a c wa wc na nc, Option.some.injEq, decide_eq_true_eq, decide_eq_false_iff_not]
  refine ⟨rankLt_irrefl a, Decidable.em _, ?_, rankLt_trans, ?_, ?_, ?_, ?_⟩
  · intro h1 h2; exact rankLt_irrefl a (rankLt_trans h1 h2)
  · intro h1 h2; exact (sameValue_iff wa wb).2 (rankLt_incomp h1 h2)
  · intro h
    have h' := (sameValue_iff wa wb).1 h
    constructor
    · intro h1; exact rankLt_irrefl b ((rankLt_of_eq (c := b) h').1.1 h1)
    · intro h1; exact rankLt_irrefl b ((rankLt_of_eq (c := b) h').2.1 h1)
  · intro h; exact Or.inl h
  · intro h1 h2
    have : a.type < b.type := by
      obtain ⟨ta, da⟩ := a
      simp only [WellFormed] at wa
      simp only at *
      rw [h1]
      cases da <;> simp [codeOf] at wa <;> subst wa <;> simp [DataType.any] at *
    exact Or.inl this

/-- The hypotheses of C01 are met by a mixed triple: int8 -3, float64 -0.0 and a string. -/
example : WellFormed ⟨6, .int8 (-3)⟩ ∧ WellFormed ⟨12, .float64 9223372036854775808⟩ ∧ WellFormed ⟨13, .string [97, 98]⟩ ∧
    ¬ IsNaN ⟨6, .int8 (-3)⟩ ∧ ¬ IsNaN ⟨12, .float64 9223372036854775808⟩ ∧ ¬ IsNaN ⟨13, .string [97, 98]⟩ := by
  refine ⟨rfl, rfl, rfl, ?_, ?_, ?_⟩ <;> simp [IsNaN, ← f64NaN_iff] <;> decide

/-- C01, which order it is: values of one integer type are ordered as the integers they hold, strings
by their bytes lexicographically, floats by the numbers their IEEE 754 bit patterns represent (nothing is before or after a NaN). -/
theorem C01_natural_order (a b : EncapsulatedValue) (wa : WellFormed a) (wb : WellFormed b) (ht : a.type = b.type) :
    (∀ x y, intPayload a.data = some x → intPayload b.data = some y → (Before a b ↔ x < y)) ∧
    (∀ x y, a.data = .string x → b.data = .string y → (Before a b ↔ List.Lex (· < ·) x y)) ∧
    (∀ x y, a.data = .float64 x → b.data = .float64 y →
      (Before a b ↔ ¬ f64IsNaN x ∧ ¬ f64IsNaN y ∧ f64Value x < f64Value y)) ∧
    (∀ x y, a.data = .float32 x → b.data = .float32 y →
      (Before a b ↔ ¬ f32IsNaN x ∧ ¬ f32IsNaN y ∧ f32Value x < f32Value y)) ∧
    (a.type = DataType.any → NotBefore a b) := by
  obtain ⟨ta, da⟩ := a
  obtain ⟨tb, db⟩ := b
  simp only [WellFormed] at *
  subst ht
  have hlex : ∀ x y : GoString, strLt x y = true ↔ List.Lex (· < ·) x y := by
    intro x
    induction x with
    | nil => intro y; cases y <;> simp [strLt]
    | cons c cs ih =>
      intro y
      cases y with
      | nil => simp [strLt]
      | cons d ds =>
        simp only [strLt, List.cons_lex_cons_iff]
        by_cases h1 : c < d
        · simp [h1]
        · by_cases h2 : d < c
          · have : c ≠ d := by rintro rfl; exact h1 h2
            simp [h1, h2, this]
          · have : c = d := by
              rw [UInt8.lt_iff_toNat_lt] at h1 h2
              exact UInt8.toNat_inj.1 (by omega)
            simp [this, ih]
  refine ⟨?_, ?_, ?_, ?_, ?_⟩
  · intro x y hx hy
    cases da <;> simp [codeOf] at wa <;> subst wa <;> cases db <;> simp [codeOf] at wb <;>
      simp [intPayload] at hx hy <;> subst hx <;> subst hy <;>
      simp [Before, EncapsulatedValue.lessMatchType, DataType.lessMatchType, EncapsulatedValue.lessValueMatchType,
        DataType.uint8, DataType.uint16, DataType.uint32, DataType.uint64,
          DataType.uint, DataType.int8, DataType.int16, DataType.int32, DataType.int64, DataType.int, UInt8.lt_iff_toNat_lt,
          UInt16.lt_iff_toNat_lt, UInt32.lt_iff_toNat_lt, UInt64.lt_iff_toNat_lt, Int8.lt_iff_toInt_lt, Int16.lt_iff_toInt_lt,
          Int32.lt_iff_toInt_lt, Int64.lt_iff_toInt_lt]
  · rintro x y rfl rfl
    simp [codeOf] at wa; subst wa
    rw [← hlex]
    simp [Before, EncapsulatedValue.lessMatchType, DataType.lessMatchType, EncapsulatedValue.lessValueMatchType,
        DataType.uint8, DataType.uint16, DataType.uint32, DataType.uint64,
          DataType.uint, DataType.int8, DataType.int16, DataType.int32, DataType.int64, DataType.int, DataType.float32,
          DataType.float64, DataType.string]
  · rintro x y rfl rfl
    simp [codeOf] at wa; subst wa
    rw [← f64NaN_iff, ← f64NaN_iff, ← f64Ord_lt_iff]
    simp [Before, EncapsulatedValue.lessMatchType, DataType.lessMatchType, EncapsulatedValue.lessValueMatchType,
        DataType.uint8, DataType.uint16, DataType.uint32, DataType.uint64,
          DataType.uint, DataType.int8, DataType.int16, DataType.int32, DataType.int64, DataType.int, DataType.float32,
          DataType.float64, f64Lt, and_assoc]
  · rintro x y rfl rfl
    simp [codeOf] at wa; subst wa
    rw [← f32NaN_iff, ← f32NaN_iff, ← f32Ord_lt_iff]
    simp [Before, EncapsulatedValue.lessMatchType, DataType.lessMatchType, EncapsulatedValue.lessValueMatchType,
        DataType.uint8, DataType.uint16, DataType.uint32, DataType.uint64,
          DataType.uint, DataType.int8, DataType.int16, DataType.int32, DataType.int64, DataType.int, DataType.float32,
          f32Lt, and_assoc]
  · rintro h
    change ta = _ at h; subst h
    simp [NotBefore, EncapsulatedValue.lessMatchType, DataType.lessMatchType, EncapsulatedValue.lessValueMatchType,
        DataType.uint8, DataType.uint16, DataType.uint32, DataType.uint64,
          DataType.uint, DataType.int8, DataType.int16, DataType.int32, DataType.int64, DataType.int, DataType.float32,
          DataType.float64, DataType.string, DataType.any]

/-! ## C02 – does that hold for every value the API accepts?  No: NaN -/

/-- C02 is false of the code: three values accepted by validation, `NaN`, `1.0`, `2.0` (float64),
where NaN compares equal to both 1.0 and 2.0 although 1.0 is before 2.0.  So the tree treats NaN and
any other float64 as the same key (ValidateTypeAndData checks the kind only, ParseFloat accepts "NaN"). -/
theorem C02_violated_NaN :
    ∃ a b c : EncapsulatedValue,
      a.validate DataType.min DataType.max ∧ b.validate DataType.min DataType.max ∧ c.validate DataType.min DataType.max ∧
      NotBefore a b ∧ NotBefore b a ∧ NotBefore a c ∧ NotBefore c a ∧ Before b c ∧
      ¬ SameValue a b ∧ ¬ SameValue a c := by
  refine ⟨⟨12, .float64 9221120237041090560⟩, ⟨12, .float64 4607182418800017408⟩, ⟨12, .float64 4611686018427387904⟩, ?_⟩
  unfold NotBefore Before
  refine ⟨by decide, by decide, by decide, by decide, by decide, by decide, by decide, by decide, ?_, ?_⟩
  · simp [SameValue, ← f64Ord_eq_iff, f64Ord]
  · simp [SameValue, ← f64Ord_eq_iff, f64Ord]

/-- C02, the part that holds: all accepted values except NaN are consistently ordered: two distinct
values are never confused.  Missing: NaN (see `C02_violated_NaN`). -/
theorem C02_order_partial (a b : EncapsulatedValue)
    (va : a.validate DataType.min DataType.max = true) (vb : b.validate DataType.min DataType.max = true)
    (na : ¬ IsNaN a) (nb : ¬ IsNaN b) :
    (¬ SameValue a b ↔ (Before a b ∨ Before b a)) ∧ ¬ (Before a b ∧ Before b a) := by
  have wf : ∀ v : EncapsulatedValue, v.validate DataType.min DataType.max = true → WellFormed v := by
    intro v hv
    obtain ⟨t, d⟩ := v
    simp only [EncapsulatedValue.validate, EncapsulatedValue.validateTypeAndData, WellFormed] at *
    simp only [Bool.and_eq_true] at hv
    obtain ⟨hv, -⟩ := hv
    by_cases h1 : DataType.isAny t = true
    · simp [h1] at hv; subst hv; simp [DataType.isAny, DataType.any] at h1; simp [codeOf, h1]
    · simp only [h1] at hv
      by_cases h2 : DataType.isGeneral t = true
      · simp only [h2] at hv
        cases d <;> simp [DataType.uint8, DataType.uint16, DataType.uint32, DataType.uint64,
          DataType.uint, DataType.int8, DataType.int16, DataType.int32, DataType.int64, DataType.int, DataType.float32,
          DataType.float64, DataType.string, codeOf] at * <;> omega
      · simp [h2] at hv
  have wa := wf a va
  have wb := wf b vb
  simp only [Before, lessMatchType_eq wa wb na nb, lessMatchType_eq wb wa nb na, Option.some.injEq, decide_eq_true_eq,
    sameValue_iff wa wb]
  constructor
  · constructor
    · intro h
      by_cases h1 : rankLt a b
      · exact .inl h1
      · by_cases h2 : rankLt b a
        · exact .inr h2
        · exact absurd (rankLt_incomp h1 h2) h
    · intro h hs
      have := (rankLt_of_eq (c := b) hs)
      rcases h with h | h
      · exact rankLt_irrefl b (this.1.1 h)
      · exact rankLt_irrefl b (this.2.1 h)
  · rintro ⟨h1, h2⟩; exact rankLt_irrefl a (rankLt_trans h1 h2)

example : (⟨11, .float32 1065353216⟩ : EncapsulatedValue).validate DataType.min DataType.max = true ∧
    ¬ IsNaN ⟨11, .float32 1065353216⟩ := ⟨by decide, by simp [IsNaN, ← f32NaN_iff]; decide⟩

/-! ## C03 – JSON round trip -/

/-- C03, the values other than floats (see `C03_json_roundtrip_partial` in Props/FloatText.lean for all).  For every well-formed value that
is not a float, encoding its data succeeds and decoding the
result under the same type gives back the same data (whatever the float formatter/parser do). -/
theorem C03_nonfloat_text (fmt32 : UInt32 → GoString) (fmt64 : UInt64 → GoString)
    (parse32 : GoString → Option UInt32) (parse64 : GoString → Option UInt64)
    (v : EncapsulatedValue) (w : WellFormed v) (h32 : v.type ≠ DataType.float32) (h64 : v.type ≠ DataType.float64) :
    ∃ text, stringEncoding fmt32 fmt64 v.type v.data = some text ∧
      stringDecoding parse32 parse64 v.type text = some v.data := by
  obtain ⟨t, d⟩ := v
  simp only [WellFormed] at w
  simp only at h32 h64
  cases d <;> simp [codeOf] at w <;> subst w <;>
    simp [stringEncoding, stringDecoding, DataType.isAny, DataType.isGeneral, DataType.uint8, DataType.uint16, DataType.uint32, DataType.uint64,
          DataType.uint, DataType.int8, DataType.int16, DataType.int32, DataType.int64, DataType.int, DataType.float32,
          DataType.float64, DataType.string, DataType.any] at *
  case uint8 v => rw [parseUint_formatUint (by have := v.toNat_lt; omega)]; simp
  case uint16 v => rw [parseUint_formatUint (by have := v.toNat_lt; omega)]; simp
  case uint32 v => rw [parseUint_formatUint (by have := v.toNat_lt; omega)]; simp
  case uint64 v => rw [parseUint_formatUint (by have := v.toNat_lt; omega)]; simp
  case uint v => rw [parseUint_formatUint (by have := v.toNat_lt; omega)]; simp
  case int8 v => rw [parseInt_formatInt (by omega) (by omega) v.le_toInt v.toInt_lt]; simp
  case int16 v => rw [parseInt_formatInt (by omega) (by omega) v.le_toInt v.toInt_lt]; simp
  case int32 v => rw [parseInt_formatInt (by omega) (by omega) v.le_toInt v.toInt_lt]; simp
  case int64 v => rw [parseInt_formatInt (by omega) (by omega) v.le_toInt v.toInt_lt]; simp
  case int v => rw [parseInt_formatInt (by omega) (by omega) v.le_toInt v.toInt_lt]; simp

/-- Non-vacuity: the smallest int64 is in scope, and its text is "-9223372036854775808". -/
example : WellFormed ⟨9, .int64 (-9223372036854775808)⟩ ∧ formatInt (-1234) = [45, 49, 50, 51, 52] := ⟨rfl, by decide⟩

/-! ## C04 – validation -/

/-- C04.  A value is accepted exactly when it is well formed (known type, data of exactly that kind, nil for
`any`) and its type code lies in the allowed range. -/
theorem C04_validate_iff (v : EncapsulatedValue) (lo hi : Int) :
    v.validate lo hi = true ↔ (WellFormed v ∧ lo ≤ v.type ∧ v.type ≤ hi) := by
  obtain ⟨t, d⟩ := v
  simp only [EncapsulatedValue.validate, EncapsulatedValue.validateTypeAndData, WellFormed, Bool.and_eq_true]
  have hr : (!(decide (t < lo) || decide (t > hi))) = true ↔ (lo ≤ t ∧ t ≤ hi) := by
    simp [Int.not_lt]
  rw [hr]
  refine and_congr_left fun _ => ?_
  by_cases h1 : DataType.isAny t = true
  · have ht : t = 1024 := by simpa [DataType.isAny, DataType.any] using h1
    subst ht
    cases d <;> simp [DataType.isAny, DataType.any, codeOf]
  · have ht : t ≠ 1024 := by simpa [DataType.isAny, DataType.any] using h1
    simp only [h1]
    by_cases h2 : DataType.isGeneral t = true
    · simp only [h2]
      cases d <;> simp [DataType.uint8, DataType.uint16, DataType.uint32, DataType.uint64,
          DataType.uint, DataType.int8, DataType.int16, DataType.int32, DataType.int64, DataType.int, DataType.float32,
          DataType.float64, DataType.string, codeOf] <;> omega
    · simp only [h2]
      simp [DataType.isGeneral, DataType.uint8, DataType.uint16, DataType.uint32, DataType.uint64,
          DataType.uint, DataType.int8, DataType.int16, DataType.int32, DataType.int64, DataType.int, DataType.float32,
          DataType.float64, DataType.string] at h2
      cases d <;> simp [codeOf] <;> omega

/-- C04, second half: two accepted values are always compared without a crash, by both comparisons. -/
theorem C04_accepted_values_compare (a b : EncapsulatedValue) (lo hi lo' hi' : Int)
    (va : a.validate lo hi = true) (vb : b.validate lo' hi' = true) :
    EncapsulatedValue.lessMatchType a b ≠ none ∧ EncapsulatedValue.less a b ≠ none := by
  have wa := ((C04_validate_iff a lo hi).1 va).1
  have wb := ((C04_validate_iff b lo' hi').1 vb).1
  obtain ⟨ta, da⟩ := a
  obtain ⟨tb, db⟩ := b
  simp only [WellFormed] at wa wb
  have key : ta = tb → EncapsulatedValue.lessValueMatchType ⟨ta, da⟩ ⟨tb, db⟩ ≠ none := by
    intro h; subst h
    cases da <;> simp [codeOf] at wa <;> subst wa <;> cases db <;> simp [codeOf] at wb <;>
      simp [EncapsulatedValue.lessValueMatchType, DataType.uint8, DataType.uint16, DataType.uint32, DataType.uint64,
          DataType.uint, DataType.int8, DataType.int16, DataType.int32, DataType.int64, DataType.int, DataType.float32,
          DataType.float64, DataType.string, DataType.any]
  constructor
  · simp only [EncapsulatedValue.lessMatchType, DataType.lessMatchType]
    by_cases h1 : ta < tb
    · simp [h1]
    · by_cases h2 : tb < ta
      · simp [h1, h2]
      · simpa [h1, h2] using key (by omega)
  · simp only [EncapsulatedValue.less, EncapsulatedValue.lessValue, DataType.less]
    by_cases h0 : ta = DataType.any ∨ tb = DataType.any
    · have h0' : tb = DataType.any ∨ ta = DataType.any := h0.symm
      rcases h0 with h | h <;> simp [h]
    · have h0a : ta ≠ DataType.any := fun h => h0 (.inl h)
      have h0b : tb ≠ DataType.any := fun h => h0 (.inr h)
      by_cases h1 : ta < tb
      · simp [h1, h0a, h0b]
      · by_cases h2 : tb < ta
        · simp [h1, h2, h0a, h0b]
        · simpa [h1, h2, h0a, h0b] using key (by omega)

example : (⟨13, .string []⟩ : EncapsulatedValue).validate 1 13 = true ∧ (⟨1024, .nil⟩ : EncapsulatedValue).validate 1 13 = false ∧
    (⟨14, .string []⟩ : EncapsulatedValue).validate 1 1024 = false := by decide

/-! ## C05 – decoding -/

/-- C05.  Whenever decoding the data of a request succeeds, the decoded value is well formed, hence passes validation
for any range that contains its type; and when the type is an integer type, the text denotes exactly the decoded
integer, which lies in the range of the type (no wrap-around). -/
theorem C05_decode_exact (parse32 : GoString → Option UInt32) (parse64 : GoString → Option UInt64)
    (t : Int) (raw d : Data) (h : stringDecoding parse32 parse64 t raw = some d) :
    WellFormed ⟨t, d⟩ ∧
    (∀ lo hi, lo ≤ t → t ≤ hi → (⟨t, d⟩ : EncapsulatedValue).validate lo hi = true) ∧
    (∀ r, intRange t = some r →
      ∃ s n, raw = .string s ∧ intPayload d = some n ∧ DenotesInt s n ∧ r.1 ≤ n ∧ n ≤ r.2) ∧
    (t = DataType.string → raw = d) := by
  have main : WellFormed ⟨t, d⟩ ∧
    (∀ r, intRange t = some r →
      ∃ s n, raw = .string s ∧ intPayload d = some n ∧ DenotesInt s n ∧ r.1 ≤ n ∧ n ≤ r.2) ∧
    (t = DataType.string → raw = d) := by
    simp only [stringDecoding] at h
    by_cases hany : DataType.isAny t = true
    · have ht : t = 1024 := by simpa [DataType.isAny, DataType.any] using hany
      subst ht
      simp [hany] at h
      obtain ⟨h1, h2⟩ := h
      subst h2
      refine ⟨by simp [WellFormed, codeOf], by simp [intRange], by simp [DataType.string]⟩
    · simp only [hany] at h
      by_cases hgen : DataType.isGeneral t = true
      · simp only [hgen] at h
        cases raw <;> simp at h
        rename_i s
        simp [DataType.isGeneral, DataType.uint8, DataType.uint16, DataType.uint32, DataType.uint64,
          DataType.uint, DataType.int8, DataType.int16, DataType.int32, DataType.int64, DataType.int, DataType.float32,
          DataType.float64, DataType.string] at hgen h ⊢
        rcases hgen with (((((((((((ht | ht) | ht) | ht) | ht) | ht) | ht) | ht) | ht) | ht) | ht) | ht) | ht <;> subst ht <;>
          simp at h
        · obtain ⟨n, hn, rfl⟩ := h
          obtain ⟨hd, hr⟩ := parseUint_denotes hn
          refine ⟨by simp [WellFormed, codeOf], ?_, by simp⟩
          intro r1 r2 hr1
          simp [intRange] at hr1
          obtain ⟨rfl, rfl⟩ := hr1
          simp at hr
          refine ⟨(n : Int), ?_, .inl ⟨n, hd, rfl⟩, by omega, by omega⟩
          simp only [intPayload, UInt64.toNat_ofNat', Nat.reducePow]
          rw [Nat.mod_eq_of_lt hr]
        · obtain ⟨n, hn, rfl⟩ := h
          obtain ⟨hd, hr⟩ := parseUint_denotes hn
          refine ⟨by simp [WellFormed, codeOf], ?_, by simp⟩
          intro r1 r2 hr1
          simp [intRange] at hr1
          obtain ⟨rfl, rfl⟩ := hr1
          simp at hr
          refine ⟨(n : Int), ?_, .inl ⟨n, hd, rfl⟩, by omega, by omega⟩
          simp only [intPayload, UInt8.toNat_ofNat', Nat.reducePow]
          rw [Nat.mod_eq_of_lt hr]
        · obtain ⟨n, hn, rfl⟩ := h
          obtain ⟨hd, hr⟩ := parseUint_denotes hn
          refine ⟨by simp [WellFormed, codeOf], ?_, by simp⟩
          intro r1 r2 hr1
          simp [intRange] at hr1
          obtain ⟨rfl, rfl⟩ := hr1
          simp at hr
          refine ⟨(n : Int), ?_, .inl ⟨n, hd, rfl⟩, by omega, by omega⟩
          simp only [intPayload, UInt16.toNat_ofNat', Nat.reducePow]
          rw [Nat.mod_eq_of_lt hr]
        · obtain ⟨n, hn, rfl⟩ := h
          obtain ⟨hd, hr⟩ := parseUint_denotes hn
          refine ⟨by simp [WellFormed, codeOf], ?_, by simp⟩
          intro r1 r2 hr1
          simp [intRange] at hr1
          obtain ⟨rfl, rfl⟩ := hr1
          simp at hr
          refine ⟨(n : Int), ?_, .inl ⟨n, hd, rfl⟩, by omega, by omega⟩
          simp only [intPayload, UInt32.toNat_ofNat', Nat.reducePow]
          rw [Nat.mod_eq_of_lt hr]
        · obtain ⟨n, hn, rfl⟩ := h
          obtain ⟨hd, hr⟩ := parseUint_denotes hn
          refine ⟨by simp [WellFormed, codeOf], ?_, by simp⟩
          intro r1 r2 hr1
          simp [intRange] at hr1
          obtain ⟨rfl, rfl⟩ := hr1
          simp at hr
          refine ⟨(n : Int), ?_, .inl ⟨n, hd, rfl⟩, by omega, by omega⟩
          simp only [intPayload, UInt64.toNat_ofNat', Nat.reducePow]
          rw [Nat.mod_eq_of_lt hr]
        · obtain ⟨n, hn, rfl⟩ := h
          obtain ⟨hd, hr1, hr2⟩ := parseInt_denotes hn
          refine ⟨by simp [WellFormed, codeOf], ?_, by simp⟩
          intro r1 r2 hr
          simp [intRange] at hr
          obtain ⟨rfl, rfl⟩ := hr
          simp at hr1 hr2
          refine ⟨n, ?_, hd, by omega, by omega⟩
          simp only [intPayload]
          rw [Int64.toInt_ofInt_of_le (by simpa using hr1) (by simpa using hr2)]
        · obtain ⟨n, hn, rfl⟩ := h
          obtain ⟨hd, hr1, hr2⟩ := parseInt_denotes hn
          refine ⟨by simp [WellFormed, codeOf], ?_, by simp⟩
          intro r1 r2 hr
          simp [intRange] at hr
          obtain ⟨rfl, rfl⟩ := hr
          simp at hr1 hr2
          refine ⟨n, ?_, hd, by omega, by omega⟩
          simp only [intPayload]
          rw [Int8.toInt_ofInt_of_le (by simpa using hr1) (by simpa using hr2)]
        · obtain ⟨n, hn, rfl⟩ := h
          obtain ⟨hd, hr1, hr2⟩ := parseInt_denotes hn
          refine ⟨by simp [WellFormed, codeOf], ?_, by simp⟩
          intro r1 r2 hr
          simp [intRange] at hr
          obtain ⟨rfl, rfl⟩ := hr
          simp at hr1 hr2
          refine ⟨n, ?_, hd, by omega, by omega⟩
          simp only [intPayload]
          rw [Int16.toInt_ofInt_of_le (by simpa using hr1) (by simpa using hr2)]
        · obtain ⟨n, hn, rfl⟩ := h
          obtain ⟨hd, hr1, hr2⟩ := parseInt_denotes hn
          refine ⟨by simp [WellFormed, codeOf], ?_, by simp⟩
          intro r1 r2 hr
          simp [intRange] at hr
          obtain ⟨rfl, rfl⟩ := hr
          simp at hr1 hr2
          refine ⟨n, ?_, hd, by omega, by omega⟩
          simp only [intPayload]
          rw [Int32.toInt_ofInt_of_le (by simpa using hr1) (by simpa using hr2)]
        · obtain ⟨n, hn, rfl⟩ := h
          obtain ⟨hd, hr1, hr2⟩ := parseInt_denotes hn
          refine ⟨by simp [WellFormed, codeOf], ?_, by simp⟩
          intro r1 r2 hr
          simp [intRange] at hr
          obtain ⟨rfl, rfl⟩ := hr
          simp at hr1 hr2
          refine ⟨n, ?_, hd, by omega, by omega⟩
          simp only [intPayload]
          rw [Int64.toInt_ofInt_of_le (by simpa using hr1) (by simpa using hr2)]
        · obtain ⟨n, hn, rfl⟩ := h
          exact ⟨by simp [WellFormed, codeOf], by simp [intRange], by simp⟩
        · obtain ⟨n, hn, rfl⟩ := h
          exact ⟨by simp [WellFormed, codeOf], by simp [intRange], by simp⟩
        · subst h
          refine ⟨by simp [WellFormed, codeOf], by simp [intRange], by simp⟩
      · simp [hgen] at h
  refine ⟨main.1, ?_, main.2⟩
  intro lo hi h1 h2
  exact (C04_validate_iff _ lo hi).2 ⟨main.1, h1, h2⟩

/-- Non-vacuity: "-128" decodes as int8, "-129" and "256" (uint8) are refused. -/
example : stringDecoding (fun _ => none) (fun _ => none) DataType.int8 (.string [45, 49, 50, 56]) = some (.int8 (-128)) ∧
    stringDecoding (fun _ => none) (fun _ => none) DataType.int8 (.string [45, 49, 50, 57]) = none ∧
    stringDecoding (fun _ => none) (fun _ => none) DataType.uint8 (.string [50, 53, 54]) = none := by decide

end Willow.Props
