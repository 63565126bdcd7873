import Verif.Base
/-! # What an index-v4 varint means (Documentation/gitformat-index.txt "Offset encoding")

A varint is `n` bytes, all but the last with the top bit set, the last without it; its value is the sum obtained by
reading the low seven bits big-endian, adding `2^7 + 2^14 + ... + 2^(7*(n-1))`. -/

namespace Verif.Varint.Spec

/-- all bytes but the last have the continuation bit, the last has not -/
def WellFormed : Bytes → Prop
  | [] => False
  | [c] => c.toNat < 128
  | c :: cs => 128 ≤ c.toNat ∧ WellFormed cs

/-- plain big-endian base-128 reading of the low seven bits -/
def digits : Bytes → Nat
  | [] => 0
  | c :: cs => (c.toNat % 128) * 128 ^ cs.length + digits cs

/-- `2^7 + 2^14 + ... + 2^(7*k)` -/
def bias : Nat → Nat
  | 0 => 0
  | k + 1 => bias k + 128 ^ (k + 1)

/-- the value denoted by a well-formed varint -/
def value (bs : Bytes) : Nat := digits bs + bias (bs.length - 1)

end Verif.Varint.Spec
