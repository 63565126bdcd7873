import Verif.Base
/-! # UTF-8 by RFC 3629 -/
namespace Verif.Utf8.Spec

/-- a Unicode scalar value: any code point that is not a surrogate -/
def Scalar (v : Nat) : Prop := v < 0x110000 ∧ ¬ (0xD800 ≤ v ∧ v < 0xE000)
/-- the code points Unicode reserves as non-characters -/
def Nonchar (v : Nat) : Prop := (0xFDD0 ≤ v ∧ v < 0xFDF0) ∨ v % 0x10000 ≥ 0xFFFE

/-- the bytes of a code point -/
def encode (v : Nat) : Bytes :=
  (if v < 0x80 then [v]
   else if v < 0x800 then [0xC0 + v / 64, 0x80 + v % 64]
   else if v < 0x10000 then [0xE0 + v / 4096, 0x80 + v / 64 % 64, 0x80 + v % 64]
   else [0xF0 + v / 262144, 0x80 + v / 4096 % 64, 0x80 + v / 64 % 64, 0x80 + v % 64]).map UInt8.ofNat

/-- a continuation byte -/
def Cont (c : UInt8) : Prop := 0x80 ≤ c.toNat ∧ c.toNat < 0xC0

/-- a lead byte followed by the continuation bytes it announces: the shape of a character, whatever its value -/
inductive Shaped : Bytes → Prop
  | one (a : UInt8) : a.toNat < 0x80 → Shaped [a]
  | two (a b : UInt8) : 0xC0 ≤ a.toNat → a.toNat < 0xE0 → Cont b → Shaped [a, b]
  | three (a b c : UInt8) : 0xE0 ≤ a.toNat → a.toNat < 0xF0 → Cont b → Cont c → Shaped [a, b, c]
  | four (a b c d : UInt8) : 0xF0 ≤ a.toNat → a.toNat < 0xF8 → Cont b → Cont c → Cont d → Shaped [a, b, c, d]

/-- well-formed UTF-8 text -/
def WellFormed (s : Bytes) : Prop := ∃ vs : List Nat, (∀ v ∈ vs, Scalar v) ∧ s = vs.flatMap encode

end Verif.Utf8.Spec
