import Verif.Base
/-! # UTF-8: src/util/utf8.c

The text is exactly the bytes that may be read (`str_len` of them). -/
namespace Verif.Utf8

/-- `utf8proc_utf8class`: src/util/utf8.c:37-54 -/
def utf8class : List Nat := [
  1, 1, 1, 1, 1, 1, 1, 1, 1, 1, 1, 1, 1, 1, 1, 1,
  1, 1, 1, 1, 1, 1, 1, 1, 1, 1, 1, 1, 1, 1, 1, 1,
  1, 1, 1, 1, 1, 1, 1, 1, 1, 1, 1, 1, 1, 1, 1, 1,
  1, 1, 1, 1, 1, 1, 1, 1, 1, 1, 1, 1, 1, 1, 1, 1,
  1, 1, 1, 1, 1, 1, 1, 1, 1, 1, 1, 1, 1, 1, 1, 1,
  1, 1, 1, 1, 1, 1, 1, 1, 1, 1, 1, 1, 1, 1, 1, 1,
  1, 1, 1, 1, 1, 1, 1, 1, 1, 1, 1, 1, 1, 1, 1, 1,
  1, 1, 1, 1, 1, 1, 1, 1, 1, 1, 1, 1, 1, 1, 1, 1,
  0, 0, 0, 0, 0, 0, 0, 0, 0, 0, 0, 0, 0, 0, 0, 0,
  0, 0, 0, 0, 0, 0, 0, 0, 0, 0, 0, 0, 0, 0, 0, 0,
  0, 0, 0, 0, 0, 0, 0, 0, 0, 0, 0, 0, 0, 0, 0, 0,
  0, 0, 0, 0, 0, 0, 0, 0, 0, 0, 0, 0, 0, 0, 0, 0,
  2, 2, 2, 2, 2, 2, 2, 2, 2, 2, 2, 2, 2, 2, 2, 2,
  2, 2, 2, 2, 2, 2, 2, 2, 2, 2, 2, 2, 2, 2, 2, 2,
  3, 3, 3, 3, 3, 3, 3, 3, 3, 3, 3, 3, 3, 3, 3, 3,
  4, 4, 4, 4, 4, 4, 4, 4, 0, 0, 0, 0, 0, 0, 0, 0]

/-- `str[i]` [no code: src/util/utf8.c throughout] -/
def rd (s : Bytes) (i : Nat) : Res Nat := match s[i]? with | some c => .ok c.toNat | none => .ub

/-- the loop of `utf8_charlen`: src/util/utf8.c:68-71 -/
def contLoop (s : Bytes) (length : Nat) : Nat → Nat → Res Nat
  | 0, _ => .ok length
  | fuel + 1, i => if i < length then rd s i >>= fun c => if (c &&& 0xC0) ≠ 0x80 then .err (-1) else contLoop s length fuel (i + 1) else .ok length

/-- `utf8_charlen`: src/util/utf8.c:56-74 -/
def charlen (s : Bytes) : Res Nat :=
  rd s 0 >>= fun c =>
  let length := utf8class.getD c 0
  if length = 0 then .err (-1)
  else if s.length > 0 ∧ length > s.length then .err (-1)
  else contLoop s length length 1

/-- `uc = -1` in a `uint32_t` [src/util/utf8.c:56-115] -/
def MINUS1 : Nat := 0xFFFFFFFF

/-- the switch of `git_utf8_iterate`: src/util/utf8.c:86-109 -/
def codepoint (s : Bytes) (length : Nat) : Res Nat :=
  match length with
  | 1 => rd s 0
  | 2 =>
    rd s 0 >>= fun a => rd s 1 >>= fun b =>
    let uc := ((a &&& 0x1F) <<< 6) + (b &&& 0x3F)
    if uc < 0x80 then .ok MINUS1 else .ok uc
  | 3 =>
    rd s 0 >>= fun a => rd s 1 >>= fun b => rd s 2 >>= fun c =>
    let uc := ((a &&& 0x0F) <<< 12) + ((b &&& 0x3F) <<< 6) + (c &&& 0x3F)
    if uc < 0x800 ∨ (uc ≥ 0xD800 ∧ uc < 0xE000) ∨ (uc ≥ 0xFDD0 ∧ uc < 0xFDF0) then .ok MINUS1 else .ok uc
  | 4 =>
    rd s 0 >>= fun a => rd s 1 >>= fun b => rd s 2 >>= fun c => rd s 3 >>= fun d =>
    let uc := ((a &&& 0x07) <<< 18) + ((b &&& 0x3F) <<< 12) + ((c &&& 0x3F) <<< 6) + (d &&& 0x3F)
    if uc < 0x10000 ∨ uc ≥ 0x110000 then .ok MINUS1 else .ok uc
  | _ => .err (-1)

/-- `git_utf8_iterate`: src/util/utf8.c:76-115; the number of bytes and the code point -/
def iterate (s : Bytes) : Res (Nat × Nat) :=
  charlen s >>= fun length => codepoint s length >>= fun uc => if uc &&& 0xFFFF ≥ 0xFFFE then .err (-1) else .ok (length, uc)

/-- the loop of `git_utf8_char_length`: src/util/utf8.c:118-134 -/
def charLengthLoop : Nat → Bytes → Nat → Res Nat
  | 0, _, count => .ok count
  | fuel + 1, s, count =>
    if 0 < s.length then
      match charlen s with
      | .ok n => charLengthLoop fuel (s.drop n) (count + 1)
      | .err _ => charLengthLoop fuel (s.drop 1) (count + 1)
      | .ub => .ub
    else .ok count
/-- [src/util/utf8.c:117-133] -/
def charLength (s : Bytes) : Res Nat := charLengthLoop s.length s 0

/-- the loop of `git_utf8_valid_buf_length`: src/util/utf8.c:136-151 -/
def validLoop : Nat → Bytes → Nat → Res Nat
  | 0, _, offset => .ok offset
  | fuel + 1, s, offset =>
    if 0 < s.length then
      match charlen s with
      | .ok n => validLoop fuel (s.drop n) (offset + n)
      | .err _ => .ok offset
      | .ub => .ub
    else .ok offset
/-- [src/util/utf8.c:135-150] -/
def validBufLength (s : Bytes) : Res Nat := validLoop s.length s 0

end Verif.Utf8
