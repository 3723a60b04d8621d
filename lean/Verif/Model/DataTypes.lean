/-
Model of pkg/models/datatypes (DataType codes, EncapsulatedValue, comparison, validation,
string encoding) and of pkg/models/api/common/v1/type_restrictions.go.

A Go panic is modelled as `none` where a function can panic.
-/
namespace Willow

/-- Go strings are byte sequences; `<` on strings is bytewise lexicographic. -/
abbrev GoString := List UInt8

/-! ## Data types -/

namespace DataType
/-- datatypes.go:15-29: the type codes (a Go `int`; clients may send any integer). -/
def uint8 : Int := 1
def uint16 : Int := 2
def uint32 : Int := 3
def uint64 : Int := 4
def uint : Int := 5
def int8 : Int := 6
def int16 : Int := 7
def int32 : Int := 8
def int64 : Int := 9
def int : Int := 10
def float32 : Int := 11
def float64 : Int := 12
def string : Int := 13
def any : Int := 1024
/-- datatypes.go:31: `AnyDataType`. -/
def isAny (t : Int) : Bool := t == any
/-- datatypes.go:32: `GeneralDataTypes`. -/
def isGeneral (t : Int) : Bool :=
  t == uint || t == uint8 || t == uint16 || t == uint32 || t == uint64 || t == int || t == int8 ||
  t == int16 || t == int32 || t == int64 || t == float32 || t == float64 || t == string
/-- datatypes.go:34-36. -/
def min : Int := uint8
def max : Int := any
def maxWithoutAny : Int := string
/-- datatypes.go:40-50: `DataType.Less` (false as soon as one side is any). -/
def less (a b : Int) : Bool := !(a == any || b == any) && decide (a < b)
/-- datatypes.go:53-55: `DataType.LessMatchType`. -/
def lessMatchType (a b : Int) : Bool := decide (a < b)
/-- datatypes.go:93-106: `DataType.Validate`. -/
def validate (t lo hi : Int) : Bool :=
  if t < lo ∨ t > hi then false else isAny t || isGeneral t
end DataType

/-! ## IEEE-754 comparison on bit patterns

Go's `<` on float32/float64 is the IEEE comparison.  We keep the bit pattern of a float as
payload and compare sign-magnitude numbers, which is what the IEEE order is for non-NaN values
(`-0` and `+0` have equal magnitude 0). -/

/-- Is the 32-bit pattern a NaN (exponent all ones, fraction non-zero)? -/
def f32NaN (b : UInt32) : Bool := (b.toNat % 2147483648) > 2139095040
/-- Is the 64-bit pattern a NaN? -/
def f64NaN (b : UInt64) : Bool := (b.toNat % 9223372036854775808) > 9218868437227405312
/-- Sign-magnitude integer of a 32-bit pattern: monotone in the represented number. -/
def f32Ord (b : UInt32) : Int :=
  if b.toNat ≥ 2147483648 then -((b.toNat % 2147483648 : Nat) : Int) else (b.toNat : Int)
/-- Sign-magnitude integer of a 64-bit pattern. -/
def f64Ord (b : UInt64) : Int :=
  if b.toNat ≥ 9223372036854775808 then -((b.toNat % 9223372036854775808 : Nat) : Int) else (b.toNat : Int)
/-- IEEE `<` on float32. -/
def f32Lt (a b : UInt32) : Bool := !f32NaN a && !f32NaN b && decide (f32Ord a < f32Ord b)
/-- IEEE `<` on float64. -/
def f64Lt (a b : UInt64) : Bool := !f64NaN a && !f64NaN b && decide (f64Ord a < f64Ord b)
/-- Go `==` on float32 (used by `==` on EncapsulatedValue). -/
def f32Eq (a b : UInt32) : Bool := !f32NaN a && !f32NaN b && f32Ord a == f32Ord b
/-- Go `==` on float64. -/
def f64Eq (a b : UInt64) : Bool := !f64NaN a && !f64NaN b && f64Ord a == f64Ord b

/-- Go string `<`. -/
def strLt : GoString → GoString → Bool
  | [], [] => false
  | [], _ :: _ => true
  | _ :: _, [] => false
  | a :: as, b :: bs => if a < b then true else if b < a then false else strLt as bs

/-! ## Dynamically typed data -/

/-- The dynamic value held by `EncapsulatedValue.Data any` (encapsulated_value.go:14-20).
`other` stands for every other Go kind (bool, map, slice, float from raw JSON ...). -/
inductive Data where
  | nil
  | uint8 (v : UInt8) | uint16 (v : UInt16) | uint32 (v : UInt32) | uint64 (v : UInt64) | uint (v : UInt64)
  | int8 (v : Int8) | int16 (v : Int16) | int32 (v : Int32) | int64 (v : Int64) | int (v : Int64)
  | float32 (bits : UInt32) | float64 (bits : UInt64)
  | string (s : GoString)
  | other (kind : Nat)
deriving DecidableEq, Repr

/-- encapsulated_value.go:14-20. -/
structure EncapsulatedValue where
  type : Int
  data : Data
deriving DecidableEq, Repr

namespace EncapsulatedValue

/-- encapsulated_value.go:90-123 `lessValueMatchTyoe`; `none` is the panic of a failed type
assertion or of the unknown-type default. -/
def lessValueMatchType (a b : EncapsulatedValue) : Option Bool :=
  if a.type = DataType.uint8 then
    match a.data, b.data with | .uint8 x, .uint8 y => some (decide (x < y)) | _, _ => none
  else if a.type = DataType.uint16 then
    match a.data, b.data with | .uint16 x, .uint16 y => some (decide (x < y)) | _, _ => none
  else if a.type = DataType.uint32 then
    match a.data, b.data with | .uint32 x, .uint32 y => some (decide (x < y)) | _, _ => none
  else if a.type = DataType.uint64 then
    match a.data, b.data with | .uint64 x, .uint64 y => some (decide (x < y)) | _, _ => none
  else if a.type = DataType.uint then
    match a.data, b.data with | .uint x, .uint y => some (decide (x < y)) | _, _ => none
  else if a.type = DataType.int8 then
    match a.data, b.data with | .int8 x, .int8 y => some (decide (x < y)) | _, _ => none
  else if a.type = DataType.int16 then
    match a.data, b.data with | .int16 x, .int16 y => some (decide (x < y)) | _, _ => none
  else if a.type = DataType.int32 then
    match a.data, b.data with | .int32 x, .int32 y => some (decide (x < y)) | _, _ => none
  else if a.type = DataType.int64 then
    match a.data, b.data with | .int64 x, .int64 y => some (decide (x < y)) | _, _ => none
  else if a.type = DataType.int then
    match a.data, b.data with | .int x, .int y => some (decide (x < y)) | _, _ => none
  else if a.type = DataType.float32 then
    match a.data, b.data with | .float32 x, .float32 y => some (f32Lt x y) | _, _ => none
  else if a.type = DataType.float64 then
    match a.data, b.data with | .float64 x, .float64 y => some (f64Lt x y) | _, _ => none
  else if a.type = DataType.string then
    match a.data, b.data with | .string x, .string y => some (strLt x y) | _, _ => none
  else if a.type = DataType.any then some false
  else none

/-- encapsulated_value.go:38-73 `lessValue` (after the any check its switch is the one of
`lessValueMatchTyoe`, so that function is reused). -/
def lessValue (a b : EncapsulatedValue) : Option Bool :=
  if a.type = DataType.any ∨ b.type = DataType.any then some false
  else lessValueMatchType a b

/-- encapsulated_value.go:23-36 `Less`. -/
def less (a b : EncapsulatedValue) : Option Bool :=
  if DataType.less a.type b.type then some true
  else if DataType.less b.type a.type then some false
  else lessValue a b

/-- encapsulated_value.go:76-88 `LessMatchType`. -/
def lessMatchType (a b : EncapsulatedValue) : Option Bool :=
  if DataType.lessMatchType a.type b.type then some true
  else if DataType.lessMatchType b.type a.type then some false
  else lessValueMatchType a b

/-- encapsulated_value.go:164-241 `ValidateTypeAndData` (true = nil error). -/
def validateTypeAndData (t lo hi : Int) (d : Data) : Bool :=
  let kindOk : Bool :=
    if DataType.isAny t then d = .nil
    else if DataType.isGeneral t then
      match d with
      | .nil => false
      | .uint8 _ => t == DataType.uint8
      | .uint16 _ => t == DataType.uint16
      | .uint32 _ => t == DataType.uint32
      | .uint64 _ => t == DataType.uint64
      | .uint _ => t == DataType.uint
      | .int8 _ => t == DataType.int8
      | .int16 _ => t == DataType.int16
      | .int32 _ => t == DataType.int32
      | .int64 _ => t == DataType.int64
      | .int _ => t == DataType.int
      | .float32 _ => t == DataType.float32
      | .float64 _ => t == DataType.float64
      | .string _ => t == DataType.string
      | .other _ => false
    else false
  kindOk && !(decide (t < lo) || decide (t > hi))

/-- encapsulated_value.go:160-162 `Validate`. -/
def validate (v : EncapsulatedValue) (lo hi : Int) : Bool := validateTypeAndData v.type lo hi v.data

end EncapsulatedValue

/-! ## strconv

Base-10 `FormatUint`, `FormatInt`, `ParseUint`, `ParseInt` (Go standard library), on byte strings.
`ParseUint` accepts one or more ASCII digits only (base 10 given explicitly: no underscores, no
sign); `ParseInt` accepts an optional '+' or '-' and then what `ParseUint` accepts. -/

/-- Digits of `n`, most significant first, appended before `acc`; `fuel` bounds the recursion
(the number itself suffices). -/
def digitsAux : Nat → Nat → GoString → GoString
  | 0, n, acc => UInt8.ofNat (48 + n % 10) :: acc
  | fuel + 1, n, acc =>
    if n < 10 then UInt8.ofNat (48 + n) :: acc
    else digitsAux fuel (n / 10) (UInt8.ofNat (48 + n % 10) :: acc)

/-- strconv.FormatUint(n, 10). -/
def formatUint (n : Nat) : GoString := digitsAux n n []

/-- strconv.FormatInt(n, 10). -/
def formatInt (n : Int) : GoString :=
  if n < 0 then 45 :: formatUint n.natAbs else formatUint n.natAbs

/-- Value of a string of digits, `none` when a byte is not a digit. -/
def digitsVal : GoString → Nat → Option Nat
  | [], acc => some acc
  | c :: cs, acc => if 48 ≤ c.toNat ∧ c.toNat ≤ 57 then digitsVal cs (acc * 10 + (c.toNat - 48)) else none

/-- strconv.ParseUint(s, 10, bits): `none` = ErrSyntax or ErrRange. -/
def parseUint (s : GoString) (bits : Nat) : Option Nat :=
  if s = [] then none
  else match digitsVal s 0 with
    | none => none
    | some n => if n < 2 ^ bits then some n else none

/-- Optional leading '+' (43) or '-' (45) of ParseInt: (negative, rest). -/
def splitSign (s : GoString) : Bool × GoString :=
  match s with
  | [] => (false, [])
  | c :: rest => if c = 43 then (false, rest) else if c = 45 then (true, rest) else (false, c :: rest)

/-- strconv.ParseInt(s, 10, bits). -/
def parseInt (s : GoString) (bits : Nat) : Option Int :=
  match parseUint (splitSign s).2 64 with
  | none => none
  | some n =>
    if (splitSign s).1 then (if n ≤ 2 ^ (bits - 1) then some (-(n : Int)) else none)
    else (if n < 2 ^ (bits - 1) then some (n : Int) else none)

/-! ## JSON data field -/

/-- encapsulated_value.go:244-275 `StringEncoding`.  The result is the JSON `Data` field: `nil` or a
string.  Floats (270-273, strconv.FormatFloat) are outside the model: the float text is an
opaque parameter `fmt32`/`fmt64`.  `none` = panic of a failed type assertion. -/
def stringEncoding (fmt32 : UInt32 → GoString) (fmt64 : UInt64 → GoString) (t : Int) (d : Data) : Option Data :=
  if t = DataType.any then some .nil
  else if t = DataType.string then match d with | .string s => some (.string s) | _ => none
  else if t = DataType.uint then match d with | .uint v => some (.string (formatUint v.toNat)) | _ => none
  else if t = DataType.uint8 then match d with | .uint8 v => some (.string (formatUint v.toNat)) | _ => none
  else if t = DataType.uint16 then match d with | .uint16 v => some (.string (formatUint v.toNat)) | _ => none
  else if t = DataType.uint32 then match d with | .uint32 v => some (.string (formatUint v.toNat)) | _ => none
  else if t = DataType.uint64 then match d with | .uint64 v => some (.string (formatUint v.toNat)) | _ => none
  else if t = DataType.int then match d with | .int v => some (.string (formatInt v.toInt)) | _ => none
  else if t = DataType.int8 then match d with | .int8 v => some (.string (formatInt v.toInt)) | _ => none
  else if t = DataType.int16 then match d with | .int16 v => some (.string (formatInt v.toInt)) | _ => none
  else if t = DataType.int32 then match d with | .int32 v => some (.string (formatInt v.toInt)) | _ => none
  else if t = DataType.int64 then match d with | .int64 v => some (.string (formatInt v.toInt)) | _ => none
  else if t = DataType.float32 then match d with | .float32 v => some (.string (fmt32 v)) | _ => none
  else match d with | .float64 v => some (.string (fmt64 v)) | _ => none

/-- encapsulated_value.go:278-375 `StringDecoding`; `none` = returned error.  `parse32`/`parse64`
stand for strconv.ParseFloat. -/
def stringDecoding (parse32 : GoString → Option UInt32) (parse64 : GoString → Option UInt64)
    (t : Int) (d : Data) : Option Data :=
  if DataType.isAny t then (if d = .nil then some .nil else none)
  else if DataType.isGeneral t then
    match d with
    | .string s =>
      if t = DataType.uint then (parseUint s 64).map fun n => .uint (UInt64.ofNat n)
      else if t = DataType.uint8 then (parseUint s 8).map fun n => .uint8 (UInt8.ofNat n)
      else if t = DataType.uint16 then (parseUint s 16).map fun n => .uint16 (UInt16.ofNat n)
      else if t = DataType.uint32 then (parseUint s 32).map fun n => .uint32 (UInt32.ofNat n)
      else if t = DataType.uint64 then (parseUint s 64).map fun n => .uint64 (UInt64.ofNat n)
      else if t = DataType.int then (parseInt s 64).map fun n => .int (Int64.ofInt n)
      else if t = DataType.int8 then (parseInt s 8).map fun n => .int8 (Int8.ofInt n)
      else if t = DataType.int16 then (parseInt s 16).map fun n => .int16 (Int16.ofInt n)
      else if t = DataType.int32 then (parseInt s 32).map fun n => .int32 (Int32.ofInt n)
      else if t = DataType.int64 then (parseInt s 64).map fun n => .int64 (Int64.ofInt n)
      else if t = DataType.float32 then (parse32 s).map fun b => .float32 b
      else if t = DataType.float64 then (parse64 s).map fun b => .float64 b
      else if t = DataType.string then some (.string s)
      else none
    | _ => none
  else none

/-! ## Type restrictions -/

/-- pkg/models/api/common/v1/type_restrictions.go:10-17 (`lo` = MinDataType, `hi` = MaxDataType). -/
structure TypeRestrictions where
  lo : Int
  hi : Int
deriving DecidableEq, Repr

namespace TypeRestrictions
/-- type_restrictions.go:19-39 (true = nil error). -/
def validate (r : TypeRestrictions) : Bool :=
  (DataType.isGeneral r.lo || DataType.isAny r.lo) &&
  (DataType.isGeneral r.hi || DataType.isAny r.hi) &&
  !decide (r.lo > r.hi)
/-- type_restrictions.go:41-51. -/
def typeWithinRange (r : TypeRestrictions) (t : Int) : Bool :=
  if t < r.lo then false else if t > r.hi then false else true
end TypeRestrictions

end Willow
