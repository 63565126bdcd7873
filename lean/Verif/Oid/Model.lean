import Verif.Base
/-! # Model of `src/libgit2/oid.c` and `src/libgit2/oid.h`: text form and comparison of object ids

An object id is the list of its `size` raw bytes (`size = 20` in the default SHA-1 build; the functions are
parametric in it, as the C code is through `git_oid_size`). -/

namespace Verif.Oid

/-- `from_hex[]`: src/util/util.h:193-210. -/
def fromHexTable : List Int := [
  -1, -1, -1, -1, -1, -1, -1, -1, -1, -1, -1, -1, -1, -1, -1, -1,
  -1, -1, -1, -1, -1, -1, -1, -1, -1, -1, -1, -1, -1, -1, -1, -1,
  -1, -1, -1, -1, -1, -1, -1, -1, -1, -1, -1, -1, -1, -1, -1, -1,
  0, 1, 2, 3, 4, 5, 6, 7, 8, 9, -1, -1, -1, -1, -1, -1,
  -1, 10, 11, 12, 13, 14, 15, -1, -1, -1, -1, -1, -1, -1, -1, -1,
  -1, -1, -1, -1, -1, -1, -1, -1, -1, -1, -1, -1, -1, -1, -1, -1,
  -1, 10, 11, 12, 13, 14, 15, -1, -1, -1, -1, -1, -1, -1, -1, -1,
  -1, -1, -1, -1, -1, -1, -1, -1, -1, -1, -1, -1, -1, -1, -1, -1,
  -1, -1, -1, -1, -1, -1, -1, -1, -1, -1, -1, -1, -1, -1, -1, -1,
  -1, -1, -1, -1, -1, -1, -1, -1, -1, -1, -1, -1, -1, -1, -1, -1,
  -1, -1, -1, -1, -1, -1, -1, -1, -1, -1, -1, -1, -1, -1, -1, -1,
  -1, -1, -1, -1, -1, -1, -1, -1, -1, -1, -1, -1, -1, -1, -1, -1,
  -1, -1, -1, -1, -1, -1, -1, -1, -1, -1, -1, -1, -1, -1, -1, -1,
  -1, -1, -1, -1, -1, -1, -1, -1, -1, -1, -1, -1, -1, -1, -1, -1,
  -1, -1, -1, -1, -1, -1, -1, -1, -1, -1, -1, -1, -1, -1, -1, -1,
  -1, -1, -1, -1, -1, -1, -1, -1, -1, -1, -1, -1, -1, -1, -1, -1]

/-- `git__fromhex`: src/util/util.h:212-215. -/
def fromhex (h : UInt8) : Int := fromHexTable.getD h.toNat (-1)

/-- `static char hex[] = "0123456789abcdef"` in `git_oid_fmt_substr`: src/libgit2/oid.h:160. -/
def hexDigit (n : UInt8) : UInt8 := (b!"0123456789abcdef").getD n.toNat 0

/-- One iteration of the loop body of `git_oid_from_prefix`, `out->id[p / 2] |= v << (p % 2 ? 0 : 4)`:
src/libgit2/oid.c:56. -/
def orNibble (id : Bytes) (p : Nat) (v : UInt8) : Bytes :=
  id.modify (p / 2) (· ||| (v <<< (if p % 2 = 1 then 0 else 4)))

/-- The loop of `git_oid_from_prefix`: src/libgit2/oid.c:51-57. `n` iterations remain, `p` is the position,
`s` the unread text (running past its end is `ub`). -/
def prefixLoop : Nat → Nat → Bytes → Bytes → Res Bytes
  | 0, _, id, _ => .ok id
  | _ + 1, _, _, [] => .ub
  | n + 1, p, id, c :: s =>
    let v := fromhex c
    if v < 0 then .err (-1)
    else prefixLoop n (p + 1) (orNibble id p (UInt8.ofNat v.toNat)) s

/-- `git_oid_from_prefix`: src/libgit2/oid.c:31-62 (the NULL-argument assertions are not modelled). -/
def fromPrefix (size : Nat) (s : Bytes) (len : Nat) : Res Bytes :=
  if len = 0 then .err (-1)
  else if 2 * size < len then .err (-1)
  else prefixLoop len 0 (List.replicate size 0) s

/-- `git_oid_from_string`: src/libgit2/oid.c:64-78; `s` must contain its terminating NUL. -/
def fromString (size : Nat) (s : Bytes) : Res Bytes := do
  let id ← fromPrefix size s (2 * size)
  match s[2 * size]? with
  | none => .ub
  | some c => if c ≠ 0 then .err (-1) else .ok id

/-- `git_oid_fmt_substr`, the loop `for (i = min; i < max; i++)`: src/libgit2/oid.h:166-169. -/
def fmtLoop (id : Bytes) : Nat → Nat → Res Bytes
  | 0, _ => .ok []
  | n + 1, i =>
    match id[i]? with
    | none => .ub
    | some b => do
      let rest ← fmtLoop id n (i + 1)
      .ok (hexDigit (b >>> 4) :: hexDigit (b &&& 0x0f) :: rest)

/-- `git_oid_fmt_substr`: src/libgit2/oid.h:154-173. Returns the characters stored at `str`. -/
def fmtSubstr (id : Bytes) (start count : Nat) : Res Bytes := do
  let end_ := start + count
  let min := start / 2
  let max := end_ / 2
  let head : Bytes ← (if start % 2 = 1 then
      match id[min]? with
      | none => .ub
      | some b => .ok [hexDigit (b &&& 0x0f)]
    else .ok [])
  let min := if start % 2 = 1 then min + 1 else min
  let body ← fmtLoop id (max - min) min
  let i := if min < max then max else min
  let tail : Bytes ← (if end_ % 2 = 1 then
      match id[i]? with
      | none => .ub
      | some b => .ok [hexDigit (b >>> 4)]
    else .ok [])
  .ok (head ++ body ++ tail)

/-- `git_oid_nfmt`: src/libgit2/oid.c:112-131. Returns the `n` bytes stored in `str`. -/
def nfmt (size : Nat) (n : Nat) (oid : Option Bytes) : Res Bytes :=
  match oid with
  | none => .ok (List.replicate n 0)
  | some id =>
    let hexSize := 2 * size
    let pad := if hexSize < n then List.replicate (n - hexSize) (0 : UInt8) else []
    let n := if hexSize < n then hexSize else n
    do
      let s ← fmtSubstr id 0 n
      .ok (s ++ pad)

/-- `git_oid_fmt`: src/libgit2/oid.c:133-136. -/
def fmt (size : Nat) (id : Bytes) : Res Bytes := nfmt size (2 * size) (some id)

/-- `git_oid_pathfmt`: src/libgit2/oid.c:138-149. -/
def pathfmt (size : Nat) (id : Bytes) : Res Bytes := do
  let a ← fmtSubstr id 0 2
  let b ← fmtSubstr id 2 (2 * size - 2)
  .ok (a ++ [c!"/"] ++ b)

/-- `git_oid_tostr(out, n, oid)` with a non-NULL `out` and `n > 0`: src/libgit2/oid.c:207-223.
Returns the bytes of `out` that are written. -/
def tostr (size : Nat) (n : Nat) (oid : Option Bytes) : Res Bytes :=
  let hexSize := match oid with | some _ => 2 * size | none => 0
  let n := if hexSize + 1 < n then hexSize + 1 else n
  do
    let s ← nfmt size (n - 1) oid
    .ok (s ++ [0])

/-- `memcmp(a, b, n)`; C only fixes the sign of the result, the model returns -1, 0 or 1. Reading past either buffer is
`ub` (the C function is entitled to read all `n` bytes, the model demands only those up to the first difference). [used at src/libgit2/oid.h:203] -/
def memcmp : Nat → Bytes → Bytes → Res Int
  | 0, _, _ => .ok 0
  | n + 1, a :: as, b :: bs => if a < b then .ok (-1) else if b < a then .ok 1 else memcmp n as bs
  | _ + 1, _, _ => .ub

/-- `git_oid_cmp` / `git_oid__cmp` / `git_oid_raw_cmp`: src/libgit2/oid.c:242-245, src/libgit2/oid.h:198-232. -/
def cmp (size : Nat) (a b : Bytes) : Res Int := memcmp size a b

/-- the loop of `git_oid_raw_ncmp`: src/libgit2/oid.h:183-194 -/
def ncmpLoop : Nat → Bytes → Bytes → Res Int
  | 0, _, _ => .ok 0
  | 1, a :: _, b :: _ => if (a ^^^ b) &&& 0xf0 ≠ 0 then .ok 1 else .ok 0
  | n + 2, a :: as, b :: bs => if a ≠ b then .ok 1 else ncmpLoop n as bs
  | _, _, _ => .ub

/-- `git_oid_ncmp` / `git_oid_raw_ncmp`: src/libgit2/oid.c:252-260, src/libgit2/oid.h:175-196
(`GIT_OID_MAX_HEXSIZE` is `2 * size`: include/git2/oid.h). -/
def ncmp (size : Nat) (a b : Bytes) (len : Nat) : Res Int :=
  ncmpLoop (if 2 * size < len then 2 * size else len) a b

/-- the loop of `git_oid_strcmp`: src/libgit2/oid.c:269-281; the first argument holds the id bytes still to compare, the
second the unread NUL-terminated text. -/
def strcmpLoop : Bytes → Bytes → Res Int
  | _, [] => .ub
  | [], c :: _ => if c = 0 then .ok 0 else .ok 0
  | a :: as, c :: s =>
    if c = 0 then .ok 0
    else if fromhex c < 0 then .ok (-1)
    else
      let strval := UInt8.ofNat (fromhex c).toNat <<< 4
      match s with
      | [] => .ub
      | d :: s' =>
        if d = 0 then
          if a ≠ strval then .ok ((a.toNat : Int) - strval.toNat) else strcmpLoop as (d :: s')
        else if fromhex d < 0 then .ok (-1)
        else
          let strval := strval ||| UInt8.ofNat (fromhex d).toNat
          if a ≠ strval then .ok ((a.toNat : Int) - strval.toNat) else strcmpLoop as s'

/-- `git_oid_strcmp`: src/libgit2/oid.c:264-285. -/
def strcmp (id : Bytes) (s : Bytes) : Res Int := strcmpLoop id s

/-- `git_oid_is_zero`: src/libgit2/oid.c:292-308. -/
def isZero (id : Bytes) : Bool := id.all (· == 0)

end Verif.Oid
