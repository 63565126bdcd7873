import Verif.Base
/-! # Model of `git__strntol64` / `git__strntol32` (src/util/util.c) -/
namespace Verif.Strtol

/-- `git__isspace` in the C locale: src/util/ctype_compat.h:43-46, :65 -/
def isSpace (c : UInt8) : Bool := c = 0x20 ∨ c = 0x09 ∨ c = 0x0a ∨ c = 0x0c ∨ c = 0x0d ∨ c = 0x0b

/-- the value `v` of a character, before the test `v >= base`: src/util/util.c:102-109 (`none`: `v = base`) -/
def digitVal (c : UInt8) : Option Nat :=
  if 0x30 ≤ c ∧ c ≤ 0x39 then some (c.toNat - 0x30)
  else if 0x61 ≤ c ∧ c ≤ 0x7a then some (c.toNat - 0x61 + 10)
  else if 0x41 ≤ c ∧ c ≤ 0x5a then some (c.toNat - 0x41 + 10)
  else none

/-- two's complement wrap-around to 64 bits (what the overflow builtins store) [src/util/integer.h:80-175, used at src/util/util.c:113] -/
def wrap64 (x : Int) : Int := (x + 2 ^ 63) % 2 ^ 64 - 2 ^ 63

/-- [src/util/integer.h:80-175, used at src/util/util.c:113] -/
def fits64 (x : Int) : Bool := -(2 ^ 63) ≤ x ∧ x < 2 ^ 63
/-- [src/util/util.c:138-160] -/
def fits32 (x : Int) : Bool := -(2 ^ 31) ≤ x ∧ x < 2 ^ 31

/-- accumulated state of the digit loop [src/util/util.c:34-40] -/
structure Acc where
  n : Int
  ovfl : Bool
  ndig : Nat

/-- one accepted digit: src/util/util.c:112-117 -/
def accStep (base : Nat) (neg : Bool) (a : Acc) (v : Nat) : Acc :=
  let v : Int := if neg then -(v : Int) else v
  let nn := a.n * base
  if !fits64 nn then { a with ovfl := true, ndig := a.ndig + 1 }
  else if !fits64 (wrap64 nn + v) then { n := wrap64 (wrap64 nn + v), ovfl := true, ndig := a.ndig + 1 }
  else { n := wrap64 nn + v, ovfl := a.ovfl, ndig := a.ndig + 1 }

/-- the digit loop: src/util/util.c:101-118 -/
def digitLoop (base : Nat) (neg : Bool) (a : Acc) : Bytes → Acc × Bytes
  | [] => (a, [])
  | c :: cs =>
    match digitVal c with
    | none => (a, c :: cs)
    | some v => if base ≤ v then (a, c :: cs) else digitLoop base neg (accStep base neg a v) cs

/-- base detection when `base == 0`: src/util/util.c:74-81 -/
def detectBase (base : Nat) (p : Bytes) : Nat :=
  if base = 0 then
    match p with
    | 0x30 :: x :: rest => if rest ≠ [] ∧ (x = 0x78 ∨ x = 0x58) then 16 else 8
    | 0x30 :: _ => 8
    | _ => 10
  else base

/-- skipping `0x`: src/util/util.c:93-96 -/
def skipPrefix (base : Nat) (p : Bytes) : Bytes :=
  match p with
  | 0x30 :: x :: rest => if base = 16 ∧ rest ≠ [] ∧ (x = 0x78 ∨ x = 0x58) then rest else p
  | _ => p

/-- `git__strntol64`: src/util/util.c:34-136. The result is the value and the input from `endptr` on.
`endptr` is not modelled on failure. -/
def strntol64 (s : Bytes) (base : Nat) : Res (Int × Bytes) :=
  let p := s.dropWhile isSpace
  match p with
  | [] => .err (-1)
  | c :: cs =>
    let neg : Bool := c = 0x2d
    let p := if c = 0x2d ∨ c = 0x2b then cs else c :: cs
    if p = [] then .err (-1)
    else
      let base := detectBase base p
      if 36 < base then .err (-1)
      else
        let (a, rest) := digitLoop base neg ⟨0, false, 0⟩ (skipPrefix base p)
        if a.ndig = 0 then .err (-1)
        else if a.ovfl then .err (-1)
        else .ok (a.n, rest)

/-- `git__strntol32`: src/util/util.c:138-160 -/
def strntol32 (s : Bytes) (base : Nat) : Res (Int × Bytes) :=
  match strntol64 s base with
  | .ok (v, rest) => if (v + 2 ^ 31) % 2 ^ 32 - 2 ^ 31 ≠ v then .err (-1) else .ok (v, rest)
  | .err e => .err e
  | .ub => .ub

end Verif.Strtol
