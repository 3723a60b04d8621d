import Verif.Props.DataTypes
import Verif.Proofs.FloatText
import Verif.Proofs.JsonString
/-
Property theorems about key values on the wire: C03 (round trip through JSON, floats and strings included), C05 (floats).
-/
namespace Willow.Props
open Willow Willow.Spec

/-! ## C03 – JSON round trip -/

/-- The text of every well-formed value is read back: the same data, or a NaN for a NaN. -/
theorem C03_text_roundtrip (o32 o64 : GoString → Option (Bool × Nat)) (v : EncapsulatedValue) (w : WellFormed v) :
    ∃ text d, stringEncoding fmt32 fmt64 v.type v.data = some text ∧
      stringDecoding (parse32 o32) (parse64 o64) v.type text = some d ∧
      (d = v.data ∨ (IsNaN v ∧ IsNaN ⟨v.type, d⟩)) := by
  by_cases h32 : v.type = DataType.float32
  · obtain ⟨t, d⟩ := v
    simp only [WellFormed] at w
    simp only at h32
    subst h32
    cases d <;> simp [codeOf, DataType.float32] at w
    rename_i b
    refine ⟨.string (fmt32 b), .float32 (if f32NaN b then 0x7FC00000 else b), by
      simp [stringEncoding, DataType.uint8, DataType.uint16, DataType.uint32, DataType.uint64,
          DataType.uint, DataType.int8, DataType.int16, DataType.int32, DataType.int64, DataType.int, DataType.float32,
          DataType.float64, DataType.string, DataType.any], by
      simp [stringDecoding, DataType.isAny, DataType.isGeneral, DataType.uint8, DataType.uint16, DataType.uint32, DataType.uint64,
          DataType.uint, DataType.int8, DataType.int16, DataType.int32, DataType.int64, DataType.int, DataType.float32,
          DataType.float64, DataType.string, DataType.any, parse32_fmt32], ?_⟩
    by_cases hn : f32NaN b = true
    · right
      refine ⟨(f32NaN_iff b).1 hn, ?_⟩
      simp only [hn, if_true, IsNaN]
      exact (f32NaN_iff _).1 (by decide)
    · left; simp [hn]
  · by_cases h64 : v.type = DataType.float64
    · obtain ⟨t, d⟩ := v
      simp only [WellFormed] at w
      simp only at h64
      subst h64
      cases d <;> simp [codeOf, DataType.float64] at w
      rename_i b
      refine ⟨.string (fmt64 b), .float64 (if f64NaN b then 0x7FF8000000000001 else b), by
        simp [stringEncoding, DataType.uint8, DataType.uint16, DataType.uint32, DataType.uint64,
            DataType.uint, DataType.int8, DataType.int16, DataType.int32, DataType.int64, DataType.int, DataType.float32,
            DataType.float64, DataType.string, DataType.any], by
        simp [stringDecoding, DataType.isAny, DataType.isGeneral, DataType.uint8, DataType.uint16, DataType.uint32, DataType.uint64,
            DataType.uint, DataType.int8, DataType.int16, DataType.int32, DataType.int64, DataType.int, DataType.float32,
            DataType.float64, DataType.string, DataType.any, parse64_fmt64], ?_⟩
      by_cases hn : f64NaN b = true
      · right
        refine ⟨(f64NaN_iff b).1 hn, ?_⟩
        simp only [hn, if_true, IsNaN]
        exact (f64NaN_iff _).1 (by decide)
      · left; simp [hn]
    · obtain ⟨text, h1, h2⟩ := C03_nonfloat_text fmt32 fmt64 (parse32 o32) (parse64 o64) v w h32 h64
      exact ⟨text, v.data, h1, h2, .inl rfl⟩

theorem isDigit_ascii {c : UInt8} (h : IsDigit c) : c.toNat < 128 := by unfold IsDigit at h; omega

theorem formatInt_ascii (n : Int) : ∀ b ∈ formatInt n, b.toNat < 128 := by
  intro b hb
  unfold formatInt at hb
  split at hb
  · simp only [List.mem_cons] at hb
    rcases hb with rfl | hb
    · decide
    · exact isDigit_ascii (formatUint_digit _ b hb)
  · exact isDigit_ascii (formatUint_digit _ b hb)

theorem plain_ascii {c : UInt8} (h : PlainByte c) : c.toNat < 128 := by
  rcases h with h | rfl | rfl | rfl | rfl
  · exact isDigit_ascii h
  all_goals decide

theorem formatFloat_ascii (p w : Nat) (neg : Bool) (m : Nat) : ∀ b ∈ formatFloat p w neg m, b.toNat < 128 := by
  intro b hb
  unfold formatFloat at hb
  split at hb
  · simp only [List.mem_cons, List.not_mem_nil, or_false] at hb
    rcases hb with rfl | rfl | rfl <;> decide
  · split at hb
    · simp only [List.mem_cons, List.not_mem_nil, or_false] at hb
      rcases hb with rfl | rfl | rfl | rfl
      · cases neg <;> decide
      all_goals decide
    · split at hb
      · simp only [List.mem_cons] at hb
        rcases hb with rfl | hb
        · decide
        · exact plain_ascii (finiteText_plain p w m b hb)
      · exact plain_ascii (finiteText_plain p w m b hb)

/-- The text of a value other than a string is ASCII. -/
theorem stringEncoding_ascii {t : Int} {d : Data} {text : Data} (h : stringEncoding fmt32 fmt64 t d = some text)
    (w : codeOf d = some t) (hs : ∀ s, d ≠ .string s) : text = .nil ∨ ∃ s, text = .string s ∧ ∀ b ∈ s, b.toNat < 128 := by
  have hu : ∀ n : Nat, ∀ b ∈ formatUint n, b.toNat < 128 := fun n b hb => isDigit_ascii (formatUint_digit n b hb)
  cases d <;> simp [codeOf] at w <;> subst w <;>
    simp [stringEncoding, DataType.uint8, DataType.uint16, DataType.uint32, DataType.uint64,
            DataType.uint, DataType.int8, DataType.int16, DataType.int32, DataType.int64, DataType.int, DataType.float32,
            DataType.float64, DataType.string, DataType.any] at h
  case nil => exact .inl h.symm
  case string s => exact absurd rfl (hs s)
  case float32 b => exact .inr ⟨_, h.symm, formatFloat_ascii _ _ _ _⟩
  case float64 b => exact .inr ⟨_, h.symm, formatFloat_ascii _ _ _ _⟩
  case int8 b => exact .inr ⟨_, h.symm, formatInt_ascii _⟩
  case int16 b => exact .inr ⟨_, h.symm, formatInt_ascii _⟩
  case int32 b => exact .inr ⟨_, h.symm, formatInt_ascii _⟩
  case int64 b => exact .inr ⟨_, h.symm, formatInt_ascii _⟩
  case int b => exact .inr ⟨_, h.symm, formatInt_ascii _⟩
  all_goals exact .inr ⟨_, h.symm, hu _⟩

/-- The `Data` field written for a text is read back as that text exactly when the text is UTF-8. -/
theorem jsonUnfield_string (s : GoString) : jsonUnfield (jsonQuote s) = some (.string (repair s)) := by
  have hne : jsonQuote s ≠ jsonNull := by unfold jsonQuote jsonNull; simp
  simp only [jsonUnfield, hne, if_false, jsonUnquote_jsonQuote, Option.map_some]

/-- C03, all values but strings that are not UTF-8 (for which it is false, see `C03_violated_not_utf8`).  Every well-formed key value (all integer and float types, strings that are UTF-8, `any`) survives being written
to and read from JSON: the decoded data under the same type is the same data, bit for bit; a NaN comes back as a NaN. -/
theorem C03_json_roundtrip_partial (o32 o64 : GoString → Option (Bool × Nat)) (v : EncapsulatedValue) (w : WellFormed v)
    (hutf : ∀ s, v.data = .string s → ValidUtf8 s) :
    ∃ lit d, marshalData v = some lit ∧ unmarshalData o32 o64 v.type lit = some d ∧
      (d = v.data ∨ (IsNaN v ∧ IsNaN ⟨v.type, d⟩)) := by
  obtain ⟨text, d, h1, h2, h3⟩ := C03_text_roundtrip o32 o64 v w
  by_cases hs : ∃ s, v.data = .string s
  · obtain ⟨s, hs⟩ := hs
    have hv := hutf s hs
    have ht : text = .string s := by
      have ht : v.type = 13 := by
        have := w; simp only [WellFormed, hs, codeOf, Option.some.injEq] at this; exact this.symm
      rw [hs, ht] at h1
      simp [stringEncoding, DataType.string, DataType.any] at h1
      exact h1.symm
    refine ⟨jsonQuote s, d, by simp [marshalData, h1, ht, jsonField], ?_, h3⟩
    rw [unmarshalData, jsonUnfield_string, (repair_iff_valid s).2 hv, Option.bind_some, ← ht]
    exact h2
  · rcases stringEncoding_ascii h1 w (fun s hd => hs ⟨s, hd⟩) with rfl | ⟨s, rfl, ha⟩
    · refine ⟨jsonNull, d, by simp [marshalData, h1, jsonField], ?_, h3⟩
      simp only [unmarshalData, jsonUnfield, if_true, Option.bind_some]
      exact h2
    · refine ⟨jsonQuote s, d, by simp [marshalData, h1, jsonField], ?_, h3⟩
      rw [unmarshalData, jsonUnfield_string, (repair_iff_valid s).2 (ascii_valid ha), Option.bind_some]
      exact h2

/-- Non-vacuity: the string `"é<` is UTF-8 and its literal has three escapes; the float64 0.1 is written "1E-01", the smallest
positive float32 "1E-45". -/
example : ValidUtf8 [34, 195, 169, 60] ∧
    marshalData ⟨13, .string [34, 195, 169, 60]⟩ = some [34, 92, 34, 195, 169, 92, 117, 48, 48, 51, 99, 34] ∧
    marshalData ⟨12, .float64 4591870180066957722⟩ = some [34, 49, 69, 45, 48, 49, 34] ∧
    marshalData ⟨11, .float32 1⟩ = some [34, 49, 69, 45, 52, 53, 34] :=
  ⟨⟨[34, 233, 60], by unfold Scalar; simp, by decide⟩, by decide +kernel, by decide +kernel, by decide +kernel⟩

/-- C03 does not hold for strings that are not UTF-8, although validation accepts them: they are written without an
error and read back as a different string. -/
theorem C03_violated_not_utf8 (o32 o64 : GoString → Option (Bool × Nat)) (s : GoString) (h : ¬ ValidUtf8 s) :
    (⟨13, .string s⟩ : EncapsulatedValue).validate DataType.min DataType.max = true ∧
    ∃ lit s', marshalData ⟨13, .string s⟩ = some lit ∧ unmarshalData o32 o64 13 lit = some (.string s') ∧
      s' ≠ s ∧ ValidUtf8 s' := by
  refine ⟨(C04_validate_iff _ _ _).2 ⟨rfl, by simp [DataType.min, DataType.uint8], by simp [DataType.max, DataType.any]⟩, jsonQuote s, repair s, ?_, ?_, ?_, repair_valid s⟩
  · simp [marshalData, stringEncoding, DataType.string, DataType.any, jsonField]
  · rw [unmarshalData, jsonUnfield_string, Option.bind_some]
    simp [stringDecoding, DataType.isAny, DataType.isGeneral, DataType.uint8, DataType.uint16, DataType.uint32, DataType.uint64,
            DataType.uint, DataType.int8, DataType.int16, DataType.int32, DataType.int64, DataType.int, DataType.float32,
            DataType.float64, DataType.string, DataType.any]
  · exact fun he => h ((repair_iff_valid s).1 he)

/-- Two different values that the client accepts are the same on the wire, so the service treats them as one key. -/
theorem C03_violated_collision :
    ∃ a b : EncapsulatedValue, a ≠ b ∧ a.validate DataType.min DataType.max = true ∧ b.validate DataType.min DataType.max = true ∧
      marshalData a = marshalData b ∧ marshalData a ≠ none :=
  ⟨⟨13, .string [255]⟩, ⟨13, .string [254]⟩, by decide, by decide, by decide, by decide +kernel, by decide +kernel⟩

/-! ## C05 – floats -/

/-- A text without `_`, `x` and `X`: everything but hexadecimal floats and digits separated by underscores. -/
def PlainText (s : GoString) : Prop := ∀ c ∈ s, c ≠ 95 ∧ c ≠ 120 ∧ c ≠ 88

theorem plainText_iff (s : GoString) : exoticText s = false ↔ PlainText s := by
  simp [exoticText, PlainText, List.any_eq_false, and_assoc]

/-- C05 for float32.  Whenever a plain text is accepted as a float32, the text is "nan" and the value a NaN, or it is a
possibly signed "inf" or "infinity" and the value that infinity, or it is a decimal numeral, the value has its sign and
no other float32 is nearer to it (a numeral too large for the type is refused).  (Exponents below 100000.) -/
theorem C05_float32_nearest (o32 o64 : GoString → Option (Bool × Nat)) (s : GoString) (d : Data) (hp : PlainText s)
    (h : stringDecoding (parse32 o32) (parse64 o64) DataType.float32 (.string s) = some d) :
    ∃ b : UInt32, d = .float32 b ∧
      ((f32IsNaN b ∧ Spelled s nanWord) ∨
       (expField 23 (b.toNat % 2 ^ 31) = 255 ∧ fracField 23 (b.toNat % 2 ^ 31) = 0 ∧
          ∃ sg body, s = signBytes sg ++ body ∧ (b.toNat / 2 ^ 31 = 1 ↔ sg = some true) ∧ (Spelled body infWord ∨ Spelled body infinityWord)) ∨
       (expField 23 (b.toNat % 2 ^ 31) < 255 ∧ ∃ x : Numeral, x.Ok ∧ s = x.text ∧ (b.toNat / 2 ^ 31 = 1 ↔ x.neg = true) ∧
          (x.expAbs < 100000 → Nearest 23 149 x.digits x.power (b.toNat % 2 ^ 31)))) := by
  have hi : floatInf 23 8 = 2139095040 := by decide
  simp [stringDecoding, DataType.isAny, DataType.isGeneral, DataType.uint8, DataType.uint16, DataType.uint32, DataType.uint64,
            DataType.uint, DataType.int8, DataType.int16, DataType.int32, DataType.int64, DataType.int, DataType.float32,
            DataType.float64, DataType.string, DataType.any] at h
  obtain ⟨b, hb, rfl⟩ := h
  simp only [parse32, Option.map_eq_some_iff] at hb
  obtain ⟨⟨sg, m⟩, hr, rfl⟩ := hb
  refine ⟨_, rfl, ?_⟩
  rcases parseFloat_denotes ((plainText_iff s).2 hp) hr with ⟨h1, h2⟩ | ⟨h1, sg', body, h2, h3, h4⟩ | ⟨x, x1, x2, x3, x4, x5⟩
  · simp only [Prod.mk.injEq] at h1
    obtain ⟨rfl, rfl⟩ := h1
    exact .inl ⟨(f32NaN_iff _).1 (by decide), h2⟩
  · simp only at h1 h3
    subst h1
    right; left
    have e : (UInt32.ofNat (joinSign 31 (sg, floatInf 23 8))).toNat = (if sg then 2 ^ 31 else 0) + 2139095040 := by
      rw [hi]
      simp only [joinSign, UInt32.toNat_ofNat']
      cases sg <;> rfl
    rw [e]
    refine ⟨?_, ?_, sg', body, h2, ?_, h4⟩
    · cases sg <;> decide
    · cases sg <;> decide
    · rw [← h3]; cases sg <;> decide
  · simp only at x3 x4 x5
    right; right
    have hm : m < 2139095040 := by omega
    have e : (UInt32.ofNat (joinSign 31 (sg, m))).toNat = (if sg then 2 ^ 31 else 0) + m := by
      simp only [joinSign, UInt32.toNat_ofNat']
      cases sg <;> simp <;> omega
    have e2 : (UInt32.ofNat (joinSign 31 (sg, m))).toNat % 2 ^ 31 = m := by
      rw [e]; cases sg <;> simp <;> omega
    have e3 : (UInt32.ofNat (joinSign 31 (sg, m))).toNat / 2 ^ 31 = 1 ↔ sg = true := by
      rw [e]; cases sg <;> simp <;> omega
    rw [e2]
    refine ⟨?_, x, x1, x2, ?_, x5⟩
    · unfold expField; omega
    · rw [e3, x3]

/-- C05 for float64 (see `C05_float32_nearest`). -/
theorem C05_float64_nearest (o32 o64 : GoString → Option (Bool × Nat)) (s : GoString) (d : Data) (hp : PlainText s)
    (h : stringDecoding (parse32 o32) (parse64 o64) DataType.float64 (.string s) = some d) :
    ∃ b : UInt64, d = .float64 b ∧
      ((f64IsNaN b ∧ Spelled s nanWord) ∨
       (expField 52 (b.toNat % 2 ^ 63) = 2047 ∧ fracField 52 (b.toNat % 2 ^ 63) = 0 ∧
          ∃ sg body, s = signBytes sg ++ body ∧ (b.toNat / 2 ^ 63 = 1 ↔ sg = some true) ∧ (Spelled body infWord ∨ Spelled body infinityWord)) ∨
       (expField 52 (b.toNat % 2 ^ 63) < 2047 ∧ ∃ x : Numeral, x.Ok ∧ s = x.text ∧ (b.toNat / 2 ^ 63 = 1 ↔ x.neg = true) ∧
          (x.expAbs < 100000 → Nearest 52 1074 x.digits x.power (b.toNat % 2 ^ 63)))) := by
  have hi : floatInf 52 11 = 9218868437227405312 := by decide
  simp [stringDecoding, DataType.isAny, DataType.isGeneral, DataType.uint8, DataType.uint16, DataType.uint32, DataType.uint64,
            DataType.uint, DataType.int8, DataType.int16, DataType.int32, DataType.int64, DataType.int, DataType.float32,
            DataType.float64, DataType.string, DataType.any] at h
  obtain ⟨b, hb, rfl⟩ := h
  simp only [parse64, Option.map_eq_some_iff] at hb
  obtain ⟨⟨sg, m⟩, hr, rfl⟩ := hb
  refine ⟨_, rfl, ?_⟩
  rcases parseFloat_denotes ((plainText_iff s).2 hp) hr with ⟨h1, h2⟩ | ⟨h1, sg', body, h2, h3, h4⟩ | ⟨x, x1, x2, x3, x4, x5⟩
  · simp only [Prod.mk.injEq] at h1
    obtain ⟨rfl, rfl⟩ := h1
    exact .inl ⟨(f64NaN_iff _).1 (by decide), h2⟩
  · simp only at h1 h3
    subst h1
    right; left
    have e : (UInt64.ofNat (joinSign 63 (sg, floatInf 52 11))).toNat = (if sg then 2 ^ 63 else 0) + 9218868437227405312 := by
      rw [hi]
      simp only [joinSign, UInt64.toNat_ofNat']
      cases sg <;> rfl
    rw [e]
    refine ⟨?_, ?_, sg', body, h2, ?_, h4⟩
    · cases sg <;> decide
    · cases sg <;> decide
    · rw [← h3]; cases sg <;> decide
  · simp only at x3 x4 x5
    right; right
    have hm : m < 9218868437227405312 := by omega
    have e : (UInt64.ofNat (joinSign 63 (sg, m))).toNat = (if sg then 2 ^ 63 else 0) + m := by
      simp only [joinSign, UInt64.toNat_ofNat']
      cases sg <;> simp <;> omega
    have e2 : (UInt64.ofNat (joinSign 63 (sg, m))).toNat % 2 ^ 63 = m := by
      rw [e]; cases sg <;> simp <;> omega
    have e3 : (UInt64.ofNat (joinSign 63 (sg, m))).toNat / 2 ^ 63 = 1 ↔ sg = true := by
      rw [e]; cases sg <;> simp <;> omega
    rw [e2]
    refine ⟨?_, x, x1, x2, ?_, x5⟩
    · unfold expField; omega
    · rw [e3, x3]

/-- Non-vacuity: "-2.50e3" is accepted as the float32 -2500, "1E39" is too large for a float32, "1e" is no number. -/
example : PlainText [45, 50, 46, 53, 48, 101, 51] ∧
    stringDecoding (parse32 fun _ => none) (parse64 fun _ => none) 11 (.string [45, 50, 46, 53, 48, 101, 51]) = some (.float32 0xC51C4000) ∧
    stringDecoding (parse32 fun _ => none) (parse64 fun _ => none) 11 (.string [49, 69, 51, 57]) = none ∧
    stringDecoding (parse32 fun _ => none) (parse64 fun _ => none) 11 (.string [49, 101]) = none :=
  ⟨by unfold PlainText; decide, by decide +kernel, by decide +kernel, by decide +kernel⟩

end Willow.Props
