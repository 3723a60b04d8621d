import Verif.Model.DataTypes
/-
UTF-8, as defined by Unicode.
-/
namespace Willow.Spec

/-- A Unicode scalar value. -/
def Scalar (c : Nat) : Prop := c < 0xD800 ∨ (0xE000 ≤ c ∧ c ≤ 0x10FFFF)

/-- The UTF-8 bytes of a scalar value. -/
def utf8Bytes (c : Nat) : GoString :=
  if c < 0x80 then [UInt8.ofNat c]
  else if c < 0x800 then [UInt8.ofNat (0xC0 + c / 64), UInt8.ofNat (0x80 + c % 64)]
  else if c < 0x10000 then [UInt8.ofNat (0xE0 + c / 4096), UInt8.ofNat (0x80 + c / 64 % 64), UInt8.ofNat (0x80 + c % 64)]
  else [UInt8.ofNat (0xF0 + c / 262144), UInt8.ofNat (0x80 + c / 4096 % 64), UInt8.ofNat (0x80 + c / 64 % 64), UInt8.ofNat (0x80 + c % 64)]

/-- The text is the UTF-8 form of a sequence of scalar values. -/
def ValidUtf8 (s : GoString) : Prop := ∃ cs : List Nat, (∀ c ∈ cs, Scalar c) ∧ s = cs.flatMap utf8Bytes

end Willow.Spec
