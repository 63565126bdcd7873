import Verif.Base
/-! # What a decimal/octal/hexadecimal number in a text is -/
namespace Verif.Strtol.Spec

/-- C white space -/
def Space (c : UInt8) : Prop := c ∈ (b!" \t\n\r" ++ [0x0b, 0x0c])

/-- the digits `0-9`, then `a-z` or `A-Z` for ten to thirty-five -/
def digits : Bytes := b!"0123456789abcdefghijklmnopqrstuvwxyz"
def upper : Bytes := b!"0123456789ABCDEFGHIJKLMNOPQRSTUVWXYZ"

/-- `c` is the digit of value `v` -/
def Digit (c : UInt8) (v : Nat) : Prop := digits[v]? = some c ∨ upper[v]? = some c

/-- `ds` is a run of digits below `b` and `n` is the number they spell -/
inductive Spells (b : Nat) : Bytes → Nat → Prop
  | nil : Spells b [] 0
  | snoc {ds n c v} : Spells b ds n → Digit c v → v < b → Spells b (ds ++ [c]) (n * b + v)

/-- the sign -/
def Sign (neg : Bool) (sgn : Bytes) : Prop :=
  (neg = true ∧ sgn = b!"-") ∨ (neg = false ∧ (sgn = b!"+" ∨ sgn = []))

/-- `pre` is an admissible prefix for base `base`, giving the effective base `b`, when followed by `tl`.
An explicit base 16 may be written `0x`; base 0 takes `0x` as hexadecimal and a leading `0` as octal. -/
def Prefix (base : Nat) (pre : Bytes) (b : Nat) (tl : Bytes) : Prop :=
  let hexPrefixed := ∃ x t, t ≠ [] ∧ (x = c!"x" ∨ x = c!"X") ∧ pre ++ tl = c!"0" :: x :: t
  (hexPrefixed ∧ (base = 0 ∨ base = 16) ∧ pre.length = 2 ∧ b = 16) ∨
  (¬ (hexPrefixed ∧ (base = 0 ∨ base = 16)) ∧ pre = [] ∧
    b = (if base = 0 then (if tl.head? = some c!"0" then 8 else 10) else base))

/-- `s` begins with white space and then the longest number in base `base` has value `v`; `rest` follows it. -/
def Number (s : Bytes) (base : Nat) (v : Int) (rest : Bytes) : Prop :=
  ∃ ws sgn neg pre ds b n, s = ws ++ (sgn ++ (pre ++ (ds ++ rest))) ∧
    (∀ c ∈ ws, Space c) ∧ (∀ c, (sgn ++ (pre ++ (ds ++ rest))).head? = some c → ¬ Space c) ∧
    Sign neg sgn ∧ Prefix base pre b (ds ++ rest) ∧
    b ≤ 36 ∧ ds ≠ [] ∧ Spells b ds n ∧
    (∀ c, rest.head? = some c → ∀ d, Digit c d → b ≤ d) ∧
    v = if neg then -(n : Int) else n

end Verif.Strtol.Spec
