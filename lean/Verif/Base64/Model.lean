import Verif.Base
/-! # base64 and base85: src/util/str.c

The functions append to a buffer; the model gives the bytes appended.  An error restores the buffer.  Reading outside the text is `.ub`. -/
namespace Verif.Base64

/-- `base64_encode`: src/util/str.c:246-247 -/
def enc64 : List UInt8 := b!"ABCDEFGHIJKLMNOPQRSTUVWXYZabcdefghijklmnopqrstuvwxyz0123456789+/"
/-- `base64_decode`: src/util/str.c:292-309 -/
def dec64 : List Int := [
  -1, -1, -1, -1, -1, -1, -1, -1, -1, -1, -1, -1, -1, -1, -1, -1,
  -1, -1, -1, -1, -1, -1, -1, -1, -1, -1, -1, -1, -1, -1, -1, -1,
  -1, -1, -1, -1, -1, -1, -1, -1, -1, -1, -1, 62, -1, -1, -1, 63,
  52, 53, 54, 55, 56, 57, 58, 59, 60, 61, -1, -1, -1, 0, -1, -1,
  -1, 0, 1, 2, 3, 4, 5, 6, 7, 8, 9, 10, 11, 12, 13, 14,
  15, 16, 17, 18, 19, 20, 21, 22, 23, 24, 25, -1, -1, -1, -1, -1,
  -1, 26, 27, 28, 29, 30, 31, 32, 33, 34, 35, 36, 37, 38, 39, 40,
  41, 42, 43, 44, 45, 46, 47, 48, 49, 50, 51, -1, -1, -1, -1, -1,
  -1, -1, -1, -1, -1, -1, -1, -1, -1, -1, -1, -1, -1, -1, -1, -1,
  -1, -1, -1, -1, -1, -1, -1, -1, -1, -1, -1, -1, -1, -1, -1, -1,
  -1, -1, -1, -1, -1, -1, -1, -1, -1, -1, -1, -1, -1, -1, -1, -1,
  -1, -1, -1, -1, -1, -1, -1, -1, -1, -1, -1, -1, -1, -1, -1, -1,
  -1, -1, -1, -1, -1, -1, -1, -1, -1, -1, -1, -1, -1, -1, -1, -1,
  -1, -1, -1, -1, -1, -1, -1, -1, -1, -1, -1, -1, -1, -1, -1, -1,
  -1, -1, -1, -1, -1, -1, -1, -1, -1, -1, -1, -1, -1, -1, -1, -1,
  -1, -1, -1, -1, -1, -1, -1, -1, -1, -1, -1, -1, -1, -1, -1, -1]
/-- `base85_encode`: src/util/str.c:348-349 -/
def enc85 : List UInt8 := b!"0123456789ABCDEFGHIJKLMNOPQRSTUVWXYZabcdefghijklmnopqrstuvwxyz!#$%&()*+-;<=>?@^_`{|}~"
/-- `base85_decode`: src/util/str.c:391-408 -/
def dec85 : List Int := [
  -1, -1, -1, -1, -1, -1, -1, -1, -1, -1, -1, -1, -1, -1, -1, -1,
  -1, -1, -1, -1, -1, -1, -1, -1, -1, -1, -1, -1, -1, -1, -1, -1,
  -1, 63, -1, 64, 65, 66, 67, -1, 68, 69, 70, 71, -1, 72, -1, -1,
  1, 2, 3, 4, 5, 6, 7, 8, 9, 10, -1, 73, 74, 75, 76, 77,
  78, 11, 12, 13, 14, 15, 16, 17, 18, 19, 20, 21, 22, 23, 24, 25,
  26, 27, 28, 29, 30, 31, 32, 33, 34, 35, 36, -1, -1, -1, 79, 80,
  81, 37, 38, 39, 40, 41, 42, 43, 44, 45, 46, 47, 48, 49, 50, 51,
  52, 53, 54, 55, 56, 57, 58, 59, 60, 61, 62, 82, 83, 84, 85, -1,
  -1, -1, -1, -1, -1, -1, -1, -1, -1, -1, -1, -1, -1, -1, -1, -1,
  -1, -1, -1, -1, -1, -1, -1, -1, -1, -1, -1, -1, -1, -1, -1, -1,
  -1, -1, -1, -1, -1, -1, -1, -1, -1, -1, -1, -1, -1, -1, -1, -1,
  -1, -1, -1, -1, -1, -1, -1, -1, -1, -1, -1, -1, -1, -1, -1, -1,
  -1, -1, -1, -1, -1, -1, -1, -1, -1, -1, -1, -1, -1, -1, -1, -1,
  -1, -1, -1, -1, -1, -1, -1, -1, -1, -1, -1, -1, -1, -1, -1, -1,
  -1, -1, -1, -1, -1, -1, -1, -1, -1, -1, -1, -1, -1, -1, -1, -1,
  -1, -1, -1, -1, -1, -1, -1, -1, -1, -1, -1, -1, -1, -1, -1, -1]

/-- indexing a table; all the indices used are inside (the default is never taken) [used with the tables of src/util/str.c:246-247, 292-309, 348-349, 391-408] -/
def tab (t : List UInt8) (i : Nat) : UInt8 := t.getD i 0

/-- `git_str_encode_base64`: src/util/str.c:249-289 -/
def encode64 : Bytes → Bytes
  | a :: b :: c :: rest =>
    tab enc64 (a.toNat >>> 2) :: tab enc64 ((a.toNat &&& 0x03) <<< 4 ||| b.toNat >>> 4) :: tab enc64 ((b.toNat &&& 0x0f) <<< 2 ||| c.toNat >>> 6) ::
      tab enc64 (c.toNat &&& 0x3f) :: encode64 rest
  | [a, b] => [tab enc64 (a.toNat >>> 2), tab enc64 ((a.toNat &&& 0x03) <<< 4 ||| b.toNat >>> 4), tab enc64 ((b.toNat &&& 0x0f) <<< 2), c!"="]
  | [a] => [tab enc64 (a.toNat >>> 2), tab enc64 ((a.toNat &&& 0x03) <<< 4 ||| 0 >>> 4), c!"=", c!"="]
  | [] => []

/-- the loop of `git_str_decode_base64`: src/util/str.c:327-343; the digits found are not negative where they are used -/
def loop64 : Bytes → Res Bytes
  | [] => .ok []
  | w :: x :: y :: z :: rest =>
    let a := dec64.getD w.toNat (-1); let b := dec64.getD x.toNat (-1); let c := dec64.getD y.toNat (-1); let d := dec64.getD z.toNat (-1)
    if a < 0 ∨ b < 0 ∨ c < 0 ∨ d < 0 then .err (-1)
    else
      loop64 rest >>= fun out => .ok (UInt8.ofNat ((a.toNat <<< 2) ||| (b.toNat &&& 0x30) >>> 4) :: UInt8.ofNat (((b.toNat &&& 0x0f) <<< 4) ||| ((c.toNat &&& 0x3c) >>> 2)) ::
        UInt8.ofNat ((c.toNat &&& 0x03) <<< 6 ||| (d.toNat &&& 0x3f)) :: out)
  | _ => .ub

/-- `git_str_decode_base64`: src/util/str.c:311-346 -/
def decode64 (t : Bytes) : Res Bytes := if t.length % 4 ≠ 0 then .err (-1) else loop64 t

/-- the accumulator of `git_str_encode_base85`: src/util/str.c:362-371; `(uint32_t)ch << i` -/
def acc85 : Bytes → Nat → Nat → Nat
  | [], _, acc => acc
  | ch :: rest, i, acc => acc85 rest (i - 8) (acc ||| ch.toNat <<< i)

/-- the five digits: src/util/str.c:373-381; from the last to the first -/
def digits85 : Nat → Nat → List UInt8 → List UInt8
  | 0, _, out => out
  | n + 1, acc, out => digits85 n (acc / 85) (tab enc85 (acc % 85) :: out)

/-- `git_str_encode_base85`: src/util/str.c:351-388 -/
def encode85 (data : Bytes) : Bytes :=
  match h : data with
  | [] => []
  | _ :: _ => digits85 5 (acc85 (data.take 4) 24 0) [] ++ encode85 (data.drop 4)
termination_by data.length
decreasing_by subst h; simp only [List.length_drop, List.length_cons]; omega

/-- the first four digits of a group: src/util/str.c:431-438; unsigned arithmetic -/
def four85 : Nat → Bytes → Nat → Res (Nat × Bytes)
  | 0, t, acc => .ok (acc, t)
  | _ + 1, [], _ => .ub
  | n + 1, ch :: t, acc => if dec85.getD ch.toNat (-1) - 1 < 0 then .err (-1) else four85 n t ((acc * 85 + (dec85.getD ch.toNat (-1) - 1).toNat) % 2 ^ 32)

/-- the bytes of a group: src/util/str.c:453-456 -/
def bytes85 : Nat → Nat → Bytes
  | 0, _ => []
  | n + 1, acc => UInt8.ofNat ((((acc <<< 8) % 2 ^ 32) ||| (acc >>> 24)) % 256) :: bytes85 n (((acc <<< 8) % 2 ^ 32) ||| (acc >>> 24))

/-- a group: src/util/str.c:428-449; its value and the text that follows -/
def group85 (t : Bytes) : Res (Nat × Bytes) :=
  four85 4 t 0 >>= fun (acc, t) =>
  match t with
  | [] => .ub
  | ch :: t =>
    if dec85.getD ch.toNat (-1) - 1 < 0 then .err (-1)
    else if 0xffffffff / 85 < acc ∨ 0xffffffff - (dec85.getD ch.toNat (-1) - 1).toNat < (acc * 85) % 2 ^ 32 then .err (-1)
    else .ok (((acc * 85) % 2 ^ 32 + (dec85.getD ch.toNat (-1) - 1).toNat) % 2 ^ 32, t)

/-- the loop of `git_str_decode_base85`: src/util/str.c:427-457 -/
def loop85 (t : Bytes) (outputLen : Nat) : Res Bytes :=
  if h : outputLen = 0 then .ok []
  else
    group85 t >>= fun (acc, t) =>
    loop85 t (outputLen - min outputLen 4) >>= fun out => .ok (bytes85 (min outputLen 4) acc ++ out)
termination_by outputLen
decreasing_by omega

/-- `git_str_decode_base85`: src/util/str.c:410-470 -/
def decode85 (t : Bytes) (outputLen : Nat) : Res Bytes :=
  if t.length % 5 ≠ 0 ∨ outputLen > (t.length * 4) % 2 ^ 64 / 5 then .err (-1) else loop85 t outputLen

end Verif.Base64
