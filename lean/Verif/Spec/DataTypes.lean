import Verif.Model.DataTypes
/-
Specification vocabulary for key values: which values are well formed, what it means for two
values to be the same value, and which payloads are NaN.
-/
namespace Willow.Spec

/-- The type code that a piece of data belongs to (`none` for Go kinds that are no key data). -/
def codeOf : Data → Option Int
  | .uint8 _ => some 1 | .uint16 _ => some 2 | .uint32 _ => some 3 | .uint64 _ => some 4 | .uint _ => some 5
  | .int8 _ => some 6 | .int16 _ => some 7 | .int32 _ => some 8 | .int64 _ => some 9 | .int _ => some 10
  | .float32 _ => some 11 | .float64 _ => some 12 | .string _ => some 13
  | .nil => some 1024
  | .other _ => none

/-- A well-formed value: the type code is the one of its data. -/
def WellFormed (v : EncapsulatedValue) : Prop := codeOf v.data = some v.type

/-! IEEE 754 binary formats, read from the bit pattern `m` without its sign bit, with `p` fraction bits. -/

/-- The biased exponent field. -/
def expField (p m : Nat) : Nat := m / 2 ^ p
/-- The fraction field. -/
def fracField (p m : Nat) : Nat := m % 2 ^ p
/-- The magnitude represented, in units of the smallest positive (subnormal) number: `fraction` for subnormals,
`(2^p + fraction) * 2^(exponent-1)` otherwise.  Infinity (all-ones exponent, fraction 0) becomes a number above all finite ones. -/
def magnitude (p m : Nat) : Nat :=
  if expField p m = 0 then fracField p m else (2 ^ p + fracField p m) * 2 ^ (expField p m - 1)
/-- The number represented by a 32 bit pattern (sign bit 31, 8 exponent bits, 23 fraction bits), in units of 2^-149. -/
def f32Value (b : UInt32) : Int :=
  if b.toNat / 2 ^ 31 = 1 then -(magnitude 23 (b.toNat % 2 ^ 31) : Int) else (magnitude 23 (b.toNat % 2 ^ 31) : Int)
/-- The number represented by a 64 bit pattern (sign bit 63, 11 exponent bits, 52 fraction bits), in units of 2^-1074. -/
def f64Value (b : UInt64) : Int :=
  if b.toNat / 2 ^ 63 = 1 then -(magnitude 52 (b.toNat % 2 ^ 63) : Int) else (magnitude 52 (b.toNat % 2 ^ 63) : Int)
/-- NaN: all exponent bits set and a non-zero fraction. -/
def f32IsNaN (b : UInt32) : Prop := expField 23 (b.toNat % 2 ^ 31) = 255 ∧ fracField 23 (b.toNat % 2 ^ 31) ≠ 0
/-- NaN: all exponent bits set and a non-zero fraction. -/
def f64IsNaN (b : UInt64) : Prop := expField 52 (b.toNat % 2 ^ 63) = 2047 ∧ fracField 52 (b.toNat % 2 ^ 63) ≠ 0

/-- The payload is a floating point NaN. -/
def IsNaN (v : EncapsulatedValue) : Prop :=
  match v.data with
  | .float32 b => f32IsNaN b
  | .float64 b => f64IsNaN b
  | _ => False

/-- Two values are the same value: same type and equal payload.  Two floats are equal when they
represent the same number (so `-0 = +0`). -/
def SameValue (a b : EncapsulatedValue) : Prop :=
  a.type = b.type ∧
  match a.data, b.data with
  | .float32 x, .float32 y => f32Value x = f32Value y
  | .float64 x, .float64 y => f64Value x = f64Value y
  | x, y => x = y

/-- `a` comes before `b`. -/
def Before (a b : EncapsulatedValue) : Prop := EncapsulatedValue.lessMatchType a b = some true
/-- `a` is compared with `b` without a crash and does not come before it. -/
def NotBefore (a b : EncapsulatedValue) : Prop := EncapsulatedValue.lessMatchType a b = some false

/-- `s` is a plain decimal numeral for the integer `n` (optional sign, at least one digit,
leading zeros allowed). -/
def DecimalDigits (ds : List Nat) (s : GoString) : Prop :=
  ds ≠ [] ∧ (∀ d ∈ ds, d < 10) ∧ s = ds.map (fun d => UInt8.ofNat (48 + d))
/-- Horner value of a digit list. -/
def hornerValue (ds : List Nat) : Nat := ds.foldl (fun acc d => acc * 10 + d) 0
/-- `s` denotes the natural number `n`. -/
def DenotesNat (s : GoString) (n : Nat) : Prop := ∃ ds, DecimalDigits ds s ∧ hornerValue ds = n
/-- `s` denotes the integer `n`: digits, or a sign followed by digits. -/
def DenotesInt (s : GoString) (n : Int) : Prop :=
  (∃ m, DenotesNat s m ∧ n = m) ∨
  (∃ s' m, s = 43 :: s' ∧ DenotesNat s' m ∧ n = m) ∨
  (∃ s' m, s = 45 :: s' ∧ DenotesNat s' m ∧ n = -(m : Int))

/-- Inclusive payload range of the integer types. -/
def intRange (t : Int) : Option (Int × Int) :=
  if t = 1 then some (0, 255) else if t = 2 then some (0, 65535)
  else if t = 3 then some (0, 4294967295) else if t = 4 ∨ t = 5 then some (0, 18446744073709551615)
  else if t = 6 then some (-128, 127) else if t = 7 then some (-32768, 32767)
  else if t = 8 then some (-2147483648, 2147483647)
  else if t = 9 ∨ t = 10 then some (-9223372036854775808, 9223372036854775807)
  else none

/-- The integer held by integer data. -/
def intPayload : Data → Option Int
  | .uint8 v => some v.toNat | .uint16 v => some v.toNat | .uint32 v => some v.toNat
  | .uint64 v => some v.toNat | .uint v => some v.toNat
  | .int8 v => some v.toInt | .int16 v => some v.toInt | .int32 v => some v.toInt
  | .int64 v => some v.toInt | .int v => some v.toInt
  | _ => none

end Willow.Spec
