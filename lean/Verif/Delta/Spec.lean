import Verif.Base
/-! # The git delta format, stated independently of the code (gitformat-pack, "Deltified representation") -/
namespace Verif.Delta.Spec

/-- One delta instruction. -/
inductive Instr where
  | copy (off len : Nat)
  | insert (lit : Bytes)

/-- What an instruction contributes to the result; `none` if it reaches outside the base. -/
def Instr.eval (base : Bytes) : Instr → Option Bytes
  | .copy off len => if off + len ≤ base.length then some ((base.drop off).take len) else none
  | .insert lit => some lit

/-- The result of a list of instructions. -/
def evalAll (base : Bytes) : List Instr → Option Bytes
  | [] => some []
  | i :: is => match i.eval base, evalAll base is with
    | some a, some b => some (a ++ b)
    | _, _ => none

/-- bit `k` of a byte -/
def bit (c : UInt8) (k : Nat) : Bool := c.toNat / 2 ^ k % 2 = 1

/-- a byte that is present only if its flag is -/
def opt (present : Bool) (v : UInt8) : Bytes := if present then [v] else []

/-- `Encodes i bs`: the bytes `bs` encode the instruction `i`.
* insert: a count byte 1..127 followed by that many literal bytes;
* copy: an op-code byte with bit 7 set, then up to four offset bytes and up to three size bytes in little-endian order, byte
  number `k` being present iff bit `k` of the op-code is set and zero otherwise; size 0 means 65536. -/
def Encodes : Instr → Bytes → Prop
  | .insert lit, bs => 0 < lit.length ∧ lit.length < 128 ∧ bs = UInt8.ofNat lit.length :: lit
  | .copy off len, bs => ∃ (c v0 v1 v2 v3 v4 v5 v6 : UInt8),
      bit c 7 = true ∧
      (bit c 0 = false → v0 = 0) ∧ (bit c 1 = false → v1 = 0) ∧ (bit c 2 = false → v2 = 0) ∧ (bit c 3 = false → v3 = 0) ∧
      (bit c 4 = false → v4 = 0) ∧ (bit c 5 = false → v5 = 0) ∧ (bit c 6 = false → v6 = 0) ∧
      bs = c :: (opt (bit c 0) v0 ++ (opt (bit c 1) v1 ++ (opt (bit c 2) v2 ++ (opt (bit c 3) v3 ++
        (opt (bit c 4) v4 ++ (opt (bit c 5) v5 ++ opt (bit c 6) v6)))))) ∧
      off = v0.toNat + 2 ^ 8 * v1.toNat + 2 ^ 16 * v2.toNat + 2 ^ 24 * v3.toNat ∧
      len = (let n := v4.toNat + 2 ^ 8 * v5.toNat + 2 ^ 16 * v6.toNat; if n = 0 then 65536 else n)

/-- concatenation of encoded instructions -/
inductive EncodesAll : List Instr → Bytes → Prop
  | nil : EncodesAll [] []
  | cons {i is a b} : Encodes i a → EncodesAll is b → EncodesAll (i :: is) (a ++ b)

/-- little-endian base-128 number, the top bit marking that more bytes follow -/
inductive EncodesSize : Nat → Bytes → Prop
  | last (c : UInt8) : c.toNat < 128 → EncodesSize c.toNat [c]
  | more (c : UInt8) {n bs} : 128 ≤ c.toNat → EncodesSize n bs → EncodesSize (c.toNat % 128 + 128 * n) (c :: bs)

end Verif.Delta.Spec
