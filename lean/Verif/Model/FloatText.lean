import Verif.Spec.DataTypes
/-
Text of floating point key values: `strconv.FormatFloat(x, 'E', -1, bits)` and `strconv.ParseFloat(s, bits)` as they are
called by pkg/models/datatypes/encapsulated_value.go:270-273 and 356-367, on bit patterns.

A format has `p` fraction bits, `w` exponent bits (23/8 for float32, 52/11 for float64); `unit p w` is the exponent of
its smallest positive number: 2^-149, 2^-1074.  `m` is a bit pattern without its sign bit.

Simplifications.  strconv is standard library code, not part of the repository; what is modelled is its documented
result, not its algorithms (Eisel-Lemire, Ryu): ParseFloat returns the nearest number, ties to even, and an error on
overflow; FormatFloat with precision -1 returns the fewest digits that parse back to the number, and of those the ones
closest to it (when two are equally close, the model takes the smaller).  ParseFloat also reads hexadecimal floats and digits separated by
underscores: what it answers for a text that contains `x`, `X` or `_` is a parameter of the model.
-/
namespace Willow

/-- Exponent (negated) of the smallest positive number: 149 for float32, 1074 for float64 (IEEE 754). -/
def floatUnit (p w : Nat) : Nat := 2 ^ (w - 1) - 2 + p

/-- The bit pattern of infinity, without sign (IEEE 754). -/
def floatInf (p w : Nat) : Nat := (2 ^ w - 1) * 2 ^ p

/-- The quotient `n / d` rounded to the nearest integer, ties to even. -/
def roundNE (n d : Nat) : Nat :=
  if 2 * (n % d) < d then n / d
  else if d < 2 * (n % d) then n / d + 1
  else if n / d % 2 = 0 then n / d else n / d + 1

/-- The number `n / d`, in units of the smallest positive number, rounded to a bit pattern (possibly beyond infinity):
the exponent is chosen so that `p + 1` binary digits remain. -/
def roundPattern (p n d : Nat) : Nat :=
  (Nat.log2 (n / d) - p) * 2 ^ p + roundNE n (d * 2 ^ (Nat.log2 (n / d) - p))

/-- The decimal number `D * 10^E` rounded to a bit pattern. -/
def decimalPattern (p w D : Nat) (E : Int) : Nat :=
  roundPattern p (D * 10 ^ E.toNat * 2 ^ floatUnit p w) (10 ^ (-E).toNat)

/-! ## FormatFloat -/

/-- `hi * 10^E`, without trailing zeros when `hi` is the power `10^n`. -/
def normTen (hi : Nat) (E : Int) (n : Nat) : Nat × Int := if hi = 10 ^ n then (1, E + n) else (hi, E)

/-- The decimal `c` reads back as the pattern `m`. -/
def readsBack (p w m : Nat) (c : Nat × Int) : Bool := decimalPattern p w c.1 c.2 == m

/-- Shortest digits of the pattern `m`, whose exact value is `X * 10^(-unit)` with `L` digits in `X`: try 1, 2, ...
digits, each time the two neighbours of the exact value.  `fuel` = number of lengths left to try; with all `L`
digits the exact value itself is taken. -/
def shortestFrom (p w m X L : Nat) : Nat → Nat → Nat × Int
  | 0, _ => (X, -(floatUnit p w : Int))
  | fuel + 1, n =>
    let lo : Nat × Int := (X / 10 ^ (L - n), (L : Int) - n - floatUnit p w)
    let hi : Nat × Int := normTen (X / 10 ^ (L - n) + 1) ((L : Int) - n - floatUnit p w) n
    if readsBack p w m lo && readsBack p w m hi then
      (if 2 * (X % 10 ^ (L - n)) ≤ 10 ^ (L - n) then lo else hi)
    else if readsBack p w m lo then lo
    else if readsBack p w m hi then hi
    else shortestFrom p w m X L fuel (n + 1)

/-- The exact value of the pattern in units of 10^-unit. -/
def exactTen (p w m : Nat) : Nat := Spec.magnitude p m * 5 ^ floatUnit p w

/-- Digits and exponent of a finite non-zero pattern. -/
def shortest (p w m : Nat) : Nat × Int :=
  shortestFrom p w m (exactTen p w m) (formatUint (exactTen p w m)).length ((formatUint (exactTen p w m)).length - 1) 1

/-- Exponent with a sign and at least two digits (strconv/ftoa.go `%e`). -/
def expText (e : Int) : GoString :=
  (if e < 0 then 45 else 43) :: (if e.natAbs < 10 then 48 :: formatUint e.natAbs else formatUint e.natAbs)

/-- Digits as `d.dddE±dd`, or `dE±dd` when there is only one. -/
def mantText (digs : GoString) : GoString :=
  match digs with
  | [] => []
  | [c] => [c]
  | c :: cs => c :: 46 :: cs

/-- `c.1 * 10^c.2` written with 'E' format. -/
def sciText (c : Nat × Int) : GoString :=
  mantText (formatUint c.1) ++ 69 :: expText (c.2 + ((formatUint c.1).length - 1 : Nat))

/-- Text of a pattern that is not NaN or infinite, without sign; zero is "0E+00". -/
def finiteText (p w m : Nat) : GoString := if m = 0 then [48, 69, 43, 48, 48] else sciText (shortest p w m)

/-- strconv.FormatFloat(x, 'E', -1, 1+w+p), `neg` = sign bit: "NaN", "+Inf", "-Inf" or digits. -/
def formatFloat (p w : Nat) (neg : Bool) (m : Nat) : GoString :=
  if floatInf p w < m then [78, 97, 78]
  else if m = floatInf p w then (if neg then 45 else 43) :: [73, 110, 102]
  else if neg then 45 :: finiteText p w m else finiteText p w m

/-! ## ParseFloat -/

/-- Lower case of an ASCII letter (strconv/atoi.go `lower`). -/
def asciiLower (c : UInt8) : UInt8 := if 65 ≤ c.toNat ∧ c.toNat ≤ 90 then UInt8.ofNat (c.toNat + 32) else c

/-- State after the digits and the point of a number: value of all digits, how many came after the point, whether the
point and any digit were seen, and the rest of the text. -/
structure Mant where
  val : Nat
  frac : Nat
  dot : Bool
  digit : Bool
  rest : GoString
deriving DecidableEq, Repr

/-- strconv/atof.go `readFloat`, the loop over digits and at most one point. -/
def readMant : GoString → Mant → Mant
  | [], st => { st with rest := [] }
  | c :: cs, st =>
    if 48 ≤ c.toNat ∧ c.toNat ≤ 57 then
      readMant cs { st with val := st.val * 10 + (c.toNat - 48), frac := if st.dot then st.frac + 1 else st.frac, digit := true }
    else if c = 46 ∧ st.dot = false then readMant cs { st with dot := true }
    else { st with rest := c :: cs }

/-- `readFloat`, digits of the exponent; the value stops growing once it reaches 10000. -/
def readExpDigits : GoString → Nat → Option Nat
  | [], e => some e
  | c :: cs, e =>
    if 48 ≤ c.toNat ∧ c.toNat ≤ 57 then readExpDigits cs (if e < 10000 then e * 10 + (c.toNat - 48) else e) else none

/-- `readFloat`, what follows the digits: nothing, or `e`/`E`, an optional sign and at least one digit. -/
def readExp (s : GoString) : Option Int :=
  match s with
  | [] => some 0
  | c :: cs =>
    if asciiLower c ≠ 101 then none
    else if (splitSign cs).2 = [] then none
    else (readExpDigits (splitSign cs).2 0).map fun (e : Nat) => if (splitSign cs).1 then -(e : Int) else (e : Int)

/-- `readFloat` after the digits: there must be one, and what follows must be an exponent. -/
def finishDecimal (st : Mant) : Option (Nat × Int) :=
  if st.digit = false then none
  else (readExp st.rest).map fun e => (st.val, e - st.frac)

/-- Decimal number without sign: digits and power of ten. -/
def readDecimal (s : GoString) : Option (Nat × Int) := finishDecimal (readMant s ⟨0, 0, false, false, []⟩)

/-- strconv/atof.go `special`, after the sign: "inf" and "infinity" in any case. -/
def isInfText (s : GoString) : Bool :=
  let l := s.map asciiLower
  l == [105, 110, 102] || l == [105, 110, 102, 105, 110, 105, 116, 121]

/-- strconv/atof.go `special`: "nan" in any case (no sign). -/
def isNanText (s : GoString) : Bool := s.map asciiLower == [110, 97, 110]

/-- The text has a byte `_`, `x` or `X`. -/
def exoticText (s : GoString) : Bool := s.any fun c => c = 95 || c = 120 || c = 88

/-- strconv.ParseFloat(s, 1+w+p): sign bit and the other bits; `none` = ErrSyntax or ErrRange.  `nan` = pattern of
the NaN it returns, `other` = its answers for hexadecimal texts and texts with underscores. -/
def parseFloat (p w nan : Nat) (other : GoString → Option (Bool × Nat)) (s : GoString) : Option (Bool × Nat) :=
  if exoticText s then other s
  else if isNanText s then some (false, nan)
  else if isInfText (splitSign s).2 then some ((splitSign s).1, floatInf p w)
  else match readDecimal (splitSign s).2 with
    | none => none
    | some c =>
      if decimalPattern p w c.1 c.2 < floatInf p w then some ((splitSign s).1, decimalPattern p w c.1 c.2) else none

/-! ## The two formats -/

/-- encapsulated_value.go:270-271. -/
def fmt32 (b : UInt32) : GoString := formatFloat 23 8 (decide (b.toNat / 2 ^ 31 = 1)) (b.toNat % 2 ^ 31)
/-- encapsulated_value.go:272-273. -/
def fmt64 (b : UInt64) : GoString := formatFloat 52 11 (decide (b.toNat / 2 ^ 63 = 1)) (b.toNat % 2 ^ 63)

/-- Sign and remaining bits put together. -/
def joinSign (width : Nat) (r : Bool × Nat) : Nat := (if r.1 then 2 ^ width else 0) + r.2

/-- encapsulated_value.go:356-361: ParseFloat(s, 32) and the conversion to float32 (exact; NaN becomes 0x7FC00000). -/
def parse32 (other : GoString → Option (Bool × Nat)) (s : GoString) : Option UInt32 :=
  (parseFloat 23 8 0x7FC00000 other s).map fun r => UInt32.ofNat (joinSign 31 r)
/-- encapsulated_value.go:362-367: ParseFloat(s, 64); NaN is math.NaN(), 0x7FF8000000000001. -/
def parse64 (other : GoString → Option (Bool × Nat)) (s : GoString) : Option UInt64 :=
  (parseFloat 52 11 0x7FF8000000000001 other s).map fun r => UInt64.ofNat (joinSign 63 r)

end Willow
