import Verif.Base
/-! # Model of `src/util/varint.c` (offset varints of index format v4) -/

namespace Verif.Varint

/-- `MSB(x, 7)` on a 64-bit `uintmax_t`: src/util/util.h:21. -/
def msb7 (x : UInt64) : UInt64 := x &&& ((~~~ (0 : UInt64)) <<< 57)

/-- The `while (c & 128)` loop of `git_decode_varint`: src/util/varint.c:15-25.
`c` is the last byte read, `rest` the bytes of the buffer still unread, `n` the number of bytes read so far.
Running off the end of the buffer is `ub`; the reported overflow (`*varint_len = 0`) is `err (-1)`. -/
def decodeLoop (val : UInt64) (c : UInt8) (n : Nat) (rest : Bytes) : Res (UInt64 × Nat) :=
  if c &&& 128 = 0 then .ok (val, n)
  else
    let val := val + 1
    if val = 0 ∨ msb7 val ≠ 0 then .err (-1)
    else match rest with
      | [] => .ub
      | c' :: rest' => decodeLoop ((val <<< 7) + (c' &&& 127).toUInt64) c' (n + 1) rest'

/-- `git_decode_varint`: src/util/varint.c:10-28. Returns the value and `*varint_len`. -/
def decode : Bytes → Res (UInt64 × Nat)
  | [] => .ub
  | c :: rest => decodeLoop (c &&& 127).toUInt64 c 1 rest

/-- The `while (value >>= 7)` loop of `git_encode_varint`: src/util/varint.c:35-36.
`acc` is the part of `varint[16]` from `pos` to its end. -/
def encodeLoop (value : UInt64) (acc : Bytes) : Bytes :=
  let v := value >>> 7
  if h : v = 0 then acc
  else encodeLoop (v - 1) ((128 ||| (v - 1) &&& 127).toUInt8 :: acc)
  termination_by value.toNat
  decreasing_by
    have h1 : v.toNat ≠ 0 := by
      intro hh; exact h (UInt64.toNat_inj.mp (by simpa using hh))
    have h2 : v.toNat = value.toNat / 128 := by
      simp [v, UInt64.toNat_shiftRight, Nat.shiftRight_eq_div_pow]
    have h3 : (v - 1).toNat = v.toNat - 1 := by
      rw [UInt64.toNat_sub_of_le]
      · rfl
      · rw [UInt64.le_iff_toNat_le]; simp; omega
    show (v - 1).toNat < value.toNat
    omega

/-- The bytes `git_encode_varint` leaves at the end of its scratch array: src/util/varint.c:30-36. -/
def encodeBytes (value : UInt64) : Bytes := encodeLoop value [(value &&& 127).toUInt8]

/-- `git_encode_varint(buf, bufsize, value)`: src/util/varint.c:30-43. `none` for `buf` is the NULL buffer
(size query). Returns the bytes copied into `buf` together with the return value; `ub` when the 16-byte scratch
array would be overrun. -/
def encode (bufsize : Option Nat) (value : UInt64) : Res (Bytes × Nat) :=
  let bs := encodeBytes value
  if 16 < bs.length then .ub
  else match bufsize with
    | none => .ok ([], bs.length)
    | some k => if k < bs.length then .err (-1) else .ok (bs, bs.length)

end Verif.Varint
