import Verif.Byte

/-! # Specification vocabulary: UTF-8 (RFC 3629) -/

namespace Verif.Spec

/-- The bytes of the code point `v`. -/
def utf8Bytes (v : Nat) : List Nat :=
  if v < 0x80 then [v]
  else if v < 0x800 then [0xC0 + v / 64, 0x80 + v % 64]
  else if v < 0x10000 then [0xE0 + v / 4096, 0x80 + v / 64 % 64, 0x80 + v % 64]
  else [0xF0 + v / 262144, 0x80 + v / 4096 % 64, 0x80 + v / 64 % 64, 0x80 + v % 64]

/-- A Unicode scalar value: a code point that is not a surrogate. -/
def IsScalar (v : Nat) : Prop := v < 0xD800 ∨ (0xE000 ≤ v ∧ v < 0x110000)

/-- `bs` is the encoding of a sequence of scalar values. -/
def IsUtf8 (bs : List UInt8) : Prop :=
  ∃ vs : List Nat, (∀ v ∈ vs, IsScalar v) ∧ bs.map UInt8.toNat = vs.flatMap utf8Bytes

end Verif.Spec
