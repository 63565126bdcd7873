import Verif.Base
/-! # Quoted, escaped and percent-encoded text -/
namespace Verif.Quote.Spec

/-- C white space -/
def Space (c : UInt8) : Prop := c ∈ (b!" \t\n\r" ++ [0x0b, 0x0c])
instance (c : UInt8) : Decidable (Space c) := by unfold Space; infer_instance

/-- the escape sequences of one letter, and what they stand for -/
def letters : List (UInt8 × UInt8) :=
  [(c!"\"", c!"\""), (c!"\\", c!"\\"), (c!"a", 7), (c!"b", 8), (c!"t", 9), (c!"n", 10), (c!"v", 11), (c!"f", 12), (c!"r", 13)]

/-- an octal digit -/
def Octal (c : UInt8) : Prop := c!"0" ≤ c ∧ c ≤ c!"7"
instance (c : UInt8) : Decidable (Octal c) := by unfold Octal; infer_instance

/-- value of a digit -/
def val (c : UInt8) : Nat := c.toNat - 48

/-- `Decodes body text`: between the quotes, `body` stands for `text` -/
inductive Decodes : Bytes → Bytes → Prop where
  | nil : Decodes [] []
  | plain (c : UInt8) {r t} : c ≠ c!"\\" → Decodes r t → Decodes (c :: r) (c :: t)
  | letter (e c : UInt8) {r t} : (e, c) ∈ letters → Decodes r t → Decodes (c!"\\" :: e :: r) (c :: t)
  | octal (x y z : UInt8) {r t} : Octal x → Octal y → Octal z → val x ≤ 3 → Decodes r t →
      Decodes (c!"\\" :: x :: y :: z :: r) (UInt8.ofNat (val x * 64 + val y * 8 + val z) :: t)

/-- a byte that cannot stand unquoted in a patch header -/
def MustQuote (c : UInt8) : Prop := c = c!"\"" ∨ c = c!"\\" ∨ c.toNat < 32 ∨ 126 < c.toNat
instance (c : UInt8) : Decidable (MustQuote c) := by unfold MustQuote; infer_instance

/-- how a byte is written between quotes -/
def written (c : UInt8) : Bytes :=
  match letters.find? (·.2 == c) with
  | some (e, _) => [c!"\\", e]
  | none => if MustQuote c then [c!"\\", UInt8.ofNat (48 + c.toNat / 64), UInt8.ofNat (48 + c.toNat / 8 % 8), UInt8.ofNat (48 + c.toNat % 8)]
    else [c]

/-- every byte of the text, preceded by the escape when it is one of the bytes to escape -/
def escape (esc with' : Bytes) (s : Bytes) : Bytes := s.flatMap fun c => if c ∈ esc then with' ++ [c] else [c]

/-- value of a hexadecimal digit -/
def hexVal (c : UInt8) : Option Nat :=
  if c!"0" ≤ c ∧ c ≤ c!"9" then some (c.toNat - 48)
  else if c!"a" ≤ c ∧ c ≤ c!"f" then some (c.toNat - 97 + 10)
  else if c!"A" ≤ c ∧ c ≤ c!"F" then some (c.toNat - 65 + 10)
  else none

/-- percent decoding: `%` and two hexadecimal digits are one byte, everything else stands for itself -/
inductive Percent : Bytes → Bytes → Prop where
  | nil : Percent [] []
  | code (x y : UInt8) (a b : Nat) {r t} : hexVal x = some a → hexVal y = some b → Percent r t →
      Percent (c!"%" :: x :: y :: r) (UInt8.ofNat (a * 16 + b) :: t)
  | self (c : UInt8) {r t} : (c = c!"%" → ∀ x y z, r = x :: y :: z → hexVal x = none ∨ hexVal y = none) → Percent r t →
      Percent (c :: r) (c :: t)

end Verif.Quote.Spec
