import Verif.Model.FloatText
/-
The `Data` field of a key value on the wire: pkg/models/datatypes/encapsulated_value.go:126-157 `MarshalJSON`,
`UnmarshalJSON` hand the text of `StringEncoding` to encoding/json and the decoded text to `StringDecoding`.

Simplifications.  encoding/json is standard library code (Go 1.22, go.mod:3); modelled are string literals and null (the `Data` field).  The integer
`Type` and the braces and names of the object around the two fields are taken to come through unchanged.
-/
namespace Willow

/-- A continuation byte of UTF-8. -/
def utf8Cont (b : UInt8) : Bool := decide (128 ≤ b.toNat ∧ b.toNat ≤ 191)

/-- Length of the UTF-8 sequence at the start of the text, 0 when it is not well formed (Go `utf8.DecodeRune`
answers RuneError with width 1 then): no overlong forms, no surrogates, nothing above U+10FFFF. -/
def utf8Len (s : GoString) : Nat :=
  match s with
  | [] => 0
  | a :: r =>
    if a.toNat < 128 then 1
    else if 194 ≤ a.toNat ∧ a.toNat ≤ 223 then
      match r with
      | b :: _ => if utf8Cont b then 2 else 0
      | _ => 0
    else if 224 ≤ a.toNat ∧ a.toNat ≤ 239 then
      match r with
      | b :: c :: _ =>
        if utf8Cont b && utf8Cont c && decide (a.toNat = 224 → 160 ≤ b.toNat) && decide (a.toNat = 237 → b.toNat ≤ 159) then 3 else 0
      | _ => 0
    else if 240 ≤ a.toNat ∧ a.toNat ≤ 244 then
      match r with
      | b :: c :: d :: _ =>
        if utf8Cont b && utf8Cont c && utf8Cont d && decide (a.toNat = 240 → 144 ≤ b.toNat) && decide (a.toNat = 244 → b.toNat ≤ 143)
          then 4 else 0
      | _ => 0
    else 0

/-- The text cut into UTF-8 sequences (`some bytes`) and single bytes that belong to none (`none`); `fuel` = number of bytes. -/
def cutRunes : Nat → GoString → List (Option GoString)
  | 0, _ => []
  | _ + 1, [] => []
  | fuel + 1, a :: r =>
    if utf8Len (a :: r) = 0 then none :: cutRunes fuel r
    else some ((a :: r).take (utf8Len (a :: r))) :: cutRunes fuel ((a :: r).drop (utf8Len (a :: r)))

/-- Lower case hexadecimal digit. -/
def hexDigit (n : Nat) : UInt8 := if n < 10 then UInt8.ofNat (48 + n) else UInt8.ofNat (87 + n)

/-- encoding/json `appendString` (HTML escaping on) for one ASCII byte: control characters, `"`, `\`, `<`, `>` and `&` are escaped. -/
def quoteAscii (b : UInt8) : GoString :=
  if b = 34 ∨ b = 92 then [92, b]
  else if b = 8 then [92, 98]
  else if b = 12 then [92, 102]
  else if b = 10 then [92, 110]
  else if b = 13 then [92, 114]
  else if b = 9 then [92, 116]
  else if b.toNat < 32 ∨ b = 60 ∨ b = 62 ∨ b = 38 then [92, 117, 48, 48, hexDigit (b.toNat / 16), hexDigit (b.toNat % 16)]
  else [b]

/-- `appendString` for one piece of the text: a byte that is not UTF-8 becomes `\ufffd`, U+2028 and U+2029 are escaped,
other sequences are copied. -/
def quoteRune : Option GoString → GoString
  | none => [92, 117, 102, 102, 102, 100]
  | some [b] => quoteAscii b
  | some bs =>
    if bs = [226, 128, 168] then [92, 117, 50, 48, 50, 56]
    else if bs = [226, 128, 169] then [92, 117, 50, 48, 50, 57]
    else bs

/-- encoding/json: the string literal of a text. -/
def jsonQuote (s : GoString) : GoString := 34 :: ((cutRunes s.length s).flatMap quoteRune ++ [34])

/-- Value of a hexadecimal digit. -/
def hexVal (b : UInt8) : Option Nat :=
  if 48 ≤ b.toNat ∧ b.toNat ≤ 57 then some (b.toNat - 48)
  else if 97 ≤ b.toNat ∧ b.toNat ≤ 102 then some (b.toNat - 87)
  else if 65 ≤ b.toNat ∧ b.toNat ≤ 70 then some (b.toNat - 55)
  else none

/-- encoding/json `getu4` after `\u`: four hexadecimal digits and the rest. -/
def getU4 (s : GoString) : Option (Nat × GoString) :=
  match s with
  | a :: b :: c :: d :: rest =>
    match hexVal a, hexVal b, hexVal c, hexVal d with
    | some w, some x, some y, some z => some (((w * 16 + x) * 16 + y) * 16 + z, rest)
    | _, _, _, _ => none
  | _ => none

/-- Go `utf8.EncodeRune`: surrogates and values above U+10FFFF become U+FFFD. -/
def encodeRune (r : Nat) : GoString :=
  if r < 128 then [UInt8.ofNat r]
  else if r < 2048 then [UInt8.ofNat (192 + r / 64), UInt8.ofNat (128 + r % 64)]
  else if (55296 ≤ r ∧ r ≤ 57343) ∨ 1114111 < r then [239, 191, 189]
  else if r < 65536 then [UInt8.ofNat (224 + r / 4096), UInt8.ofNat (128 + r / 64 % 64), UInt8.ofNat (128 + r % 64)]
  else [UInt8.ofNat (240 + r / 262144), UInt8.ofNat (128 + r / 4096 % 64), UInt8.ofNat (128 + r / 64 % 64), UInt8.ofNat (128 + r % 64)]

/-- encoding/json `unquoteBytes`: the escapes of one letter. -/
def simpleEscape (c : UInt8) : Option UInt8 :=
  if c = 34 ∨ c = 92 ∨ c = 47 ∨ c = 39 then some c
  else if c = 98 then some 8 else if c = 102 then some 12 else if c = 110 then some 10
  else if c = 114 then some 13 else if c = 116 then some 9 else none

/-- `unquoteBytes`, a `\u` escape that may be the first half of a surrogate pair: the bytes written and the rest. -/
def unquoteU (s : GoString) : Option (GoString × GoString) :=
  match getU4 s with
  | none => none
  | some (r, rest) =>
    if 55296 ≤ r ∧ r ≤ 57343 then
      match rest with
      | 92 :: 117 :: rest' =>
        match getU4 rest' with
        | some (r2, rest2) =>
          if r ≤ 56319 ∧ 56320 ≤ r2 ∧ r2 ≤ 57343 then some (encodeRune ((r - 55296) * 1024 + (r2 - 56320) + 65536), rest2)
          else some ([239, 191, 189], rest)
        | none => some ([239, 191, 189], rest)
      | _ => some ([239, 191, 189], rest)
    else some (encodeRune r, rest)

/-- encoding/json `unquoteBytes` between the quotes; bytes that are not UTF-8 become U+FFFD.  `fuel` = number of bytes. -/
def unquoteBody : Nat → GoString → Option GoString
  | 0, s => if s = [] then some [] else none
  | _ + 1, [] => some []
  | fuel + 1, a :: r =>
    if a = 92 then
      match r with
      | [] => none
      | c :: rest =>
        if c = 117 then
          match unquoteU rest with
          | none => none
          | some (bs, rest') => (unquoteBody fuel rest').map (bs ++ ·)
        else
          match simpleEscape c with
          | none => none
          | some b => (unquoteBody fuel rest).map (b :: ·)
    else if a = 34 ∨ a.toNat < 32 then none
    else if utf8Len (a :: r) = 0 then (unquoteBody fuel r).map ([239, 191, 189] ++ ·)
    else (unquoteBody fuel ((a :: r).drop (utf8Len (a :: r)))).map ((a :: r).take (utf8Len (a :: r)) ++ ·)

/-- encoding/json: the text of a string literal. -/
def jsonUnquote (lit : GoString) : Option GoString :=
  match lit with
  | 34 :: rest => if rest.getLast? = some 34 then unquoteBody (rest.length - 1) rest.dropLast else none
  | _ => none

/-- "null". -/
def jsonNull : GoString := [110, 117, 108, 108]

/-- encoding/json on the dynamic `Data` field: nil is null, a string a string literal (no other kinds are produced by
StringEncoding). -/
def jsonField (d : Data) : Option GoString :=
  match d with
  | .nil => some jsonNull
  | .string s => some (jsonQuote s)
  | _ => none

/-- encoding/json into a field of type `any`: null is nil, a string literal a string; `none` = any other value
(StringDecoding refuses it, encapsulated_value.go:292-294) or an error. -/
def jsonUnfield (lit : GoString) : Option Data :=
  if lit = jsonNull then some .nil else (jsonUnquote lit).map .string

/-- encapsulated_value.go:126-136 `MarshalJSON`: the literal of the `Data` field; `none` = panic. -/
def marshalData (v : EncapsulatedValue) : Option GoString :=
  (stringEncoding fmt32 fmt64 v.type v.data).bind jsonField

/-- encapsulated_value.go:139-157 `UnmarshalJSON`: the data decoded under a type; `none` = error. -/
def unmarshalData (other32 other64 : GoString → Option (Bool × Nat)) (t : Int) (lit : GoString) : Option Data :=
  (jsonUnfield lit).bind (stringDecoding (parse32 other32) (parse64 other64) t)

end Willow
