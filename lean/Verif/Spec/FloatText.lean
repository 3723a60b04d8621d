import Verif.Spec.DataTypes
/-
What a decimal numeral is and what it means that a floating point number is the nearest one, without reference to how
text is read.
-/
namespace Willow.Spec

/-- The bytes of a list of decimal digits. -/
def digitBytes (ds : List Nat) : GoString := ds.map fun d => UInt8.ofNat (48 + d)

/-- A decimal numeral: sign, digits before and after the point, and an exponent. -/
structure Numeral where
  /-- `some false` is "+", `some true` is "-" -/
  sign : Option Bool
  ip : List Nat
  dot : Bool
  fp : List Nat
  /-- `none`, or the letter (`true` = "E"), the sign and the digits of the exponent -/
  exp : Option (Bool × Option Bool × List Nat)

/-- Bytes of an optional sign. -/
def signBytes : Option Bool → GoString
  | none => []
  | some false => [43]
  | some true => [45]

/-- Bytes of an optional exponent. -/
def expBytes : Option (Bool × Option Bool × List Nat) → GoString
  | none => []
  | some (upper, sg, ds) => (if upper then 69 else 101) :: (signBytes sg ++ digitBytes ds)

/-- Digits only, at least one digit in the number and in the exponent, no digits after a point that is not there. -/
def Numeral.Ok (x : Numeral) : Prop :=
  (∀ d ∈ x.ip ++ x.fp, d < 10) ∧ x.ip ++ x.fp ≠ [] ∧ (x.dot = false → x.fp = []) ∧
  (∀ e, x.exp = some e → e.2.2 ≠ [] ∧ ∀ d ∈ e.2.2, d < 10)

/-- The text of the numeral. -/
def Numeral.text (x : Numeral) : GoString :=
  signBytes x.sign ++ (digitBytes x.ip ++ ((if x.dot then [46] else []) ++ (digitBytes x.fp ++ expBytes x.exp)))

/-- The numeral has a minus sign. -/
def Numeral.neg (x : Numeral) : Bool := x.sign == some true

/-- All digits read as one integer. -/
def Numeral.digits (x : Numeral) : Nat := hornerValue (x.ip ++ x.fp)

/-- Absolute value of the written exponent. -/
def Numeral.expAbs (x : Numeral) : Nat := match x.exp with | none => 0 | some e => hornerValue e.2.2

/-- The written exponent. -/
def Numeral.expValue (x : Numeral) : Int :=
  match x.exp with
  | none => 0
  | some e => if e.2.1 = some true then -(hornerValue e.2.2 : Int) else (hornerValue e.2.2 : Int)

/-- The numeral denotes `digits * 10^power`, up to sign. -/
def Numeral.power (x : Numeral) : Int := x.expValue - x.fp.length

/-- The text is the lower case word `w`, each letter in either case. -/
def Spelled : GoString → GoString → Prop
  | [], [] => True
  | c :: cs, l :: ls => (c = l ∨ (c.toNat + 32 = l.toNat)) ∧ Spelled cs ls
  | _, _ => False

/-- "nan". -/
def nanWord : GoString := [110, 97, 110]
/-- "inf". -/
def infWord : GoString := [105, 110, 102]
/-- "infinity". -/
def infinityWord : GoString := [105, 110, 102, 105, 110, 105, 116, 121]

/-- Among all patterns of a format with `p` fraction bits and smallest positive number `2^-unit`, none is nearer to
`D * 10^E` than `m`.  (Everything is multiplied by `2^unit * 10^(-E)` so as to compare integers.) -/
def Nearest (p unit D : Nat) (E : Int) (m : Nat) : Prop :=
  ∀ m' : Nat, ((magnitude p m : Int) * 10 ^ (-E).toNat - D * 10 ^ E.toNat * 2 ^ unit).natAbs ≤
    ((magnitude p m' : Int) * 10 ^ (-E).toNat - D * 10 ^ E.toNat * 2 ^ unit).natAbs

end Willow.Spec
