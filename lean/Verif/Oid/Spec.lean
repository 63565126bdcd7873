import Verif.Base
/-! # What the text form of an object id is -/
namespace Verif.Oid.Spec

/-- value of a hexadecimal digit, either case -/
def hexVal (c : UInt8) : Option UInt8 :=
  if c!"0" ≤ c ∧ c ≤ c!"9" then some (c - c!"0")
  else if c!"a" ≤ c ∧ c ≤ c!"f" then some (c - c!"a" + 10)
  else if c!"A" ≤ c ∧ c ≤ c!"F" then some (c - c!"A" + 10)
  else none

/-- lower-case hexadecimal digit of a value below 16 -/
def digit (n : UInt8) : UInt8 := if n < 10 then c!"0" + n else c!"a" + (n - 10)

/-- high and low half of every byte -/
def nibbles : Bytes → List UInt8
  | [] => []
  | b :: bs => b / 16 :: b % 16 :: nibbles bs

/-- the text of an id: two lower-case digits per byte -/
def hex (id : Bytes) : Bytes := (nibbles id).map digit

/-- ASCII upper-casing of letters -/
def upper (c : UInt8) : UInt8 := if c!"a" ≤ c ∧ c ≤ c!"z" then c - 32 else c

end Verif.Oid.Spec
