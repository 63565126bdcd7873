import Verif.Dec
/-! # Signatures (src/libgit2/signature.c)

A buffer from `buffer` to `buffer_end` is the list of its bytes. -/
namespace Verif.Sig

/-- `git_signature` with its `git_time`: include/git2/types.h; `sign` is `'+'`, `'-'` or what was found in its place -/
structure Signature where
  name : Bytes
  email : Bytes
  time : Int
  offset : Int
  sign : UInt8
  deriving DecidableEq, Repr

/-- `GIT_EINVALID`: include/git2/errors.h -/
def EINVALID : Int := -21

/-- `is_crud`: src/libgit2/signature.c:44-55 -/
def isCrud (c : UInt8) : Bool :=
  c ≤ 32 ∨ c = c!"," ∨ c = c!":" ∨ c = c!";" ∨ c = c!"<" ∨ c = c!">" ∨ c = c!"\"" ∨ c = c!"\\" ∨ c = c!"'"

/-- `extract_trimmed`: src/libgit2/signature.c:57-68 -/
def trimmed (s : Bytes) : Bytes := ((s.dropWhile isCrud).reverse.dropWhile isCrud).reverse

/-- what users of a `char *` see of its bytes [no code: up to the NUL] -/
def cstr (s : Bytes) : Bytes := s.takeWhile (· ≠ 0)

/-- `contains_angle_brackets`: src/libgit2/signature.c:39-42 -/
def hasBrackets (s : Bytes) : Bool := s.contains c!"<" || s.contains c!">"

/-- `git_signature_new`: src/libgit2/signature.c:70-104; `name` and `email` are C strings -/
def new (name email : Bytes) (time offset : Int) : Res Signature :=
  if hasBrackets name || hasBrackets email then .err (-1)
  else
    let n := trimmed name
    let e := trimmed email
    if n = [] ∨ e = [] then .err (-1)
    else .ok { name := n, email := e, time := time, offset := offset, sign := if offset < 0 then c!"-" else c!"+" }

/-- `%02d` of a number that is not negative [used at src/libgit2/signature.c:439] -/
def pad2 (n : Nat) : Bytes := if n < 10 then c!"0" :: decimal n else decimal n

/-- `git_signature__writebuf`: src/libgit2/signature.c:425-442. The time is cast to `unsigned`. (`offset = INT_MIN`, which cannot be
negated, is not treated specially.) -/
def writebuf (header : Bytes) (s : Signature) : Bytes :=
  let offset := s.offset.natAbs
  header ++ s.name ++ b!" <" ++ s.email ++ b!"> " ++ decimal (s.time % 2 ^ 32).toNat ++ b!" " ++
    [if s.offset < 0 ∨ s.sign = c!"-" then c!"-" else c!"+"] ++ pad2 (offset / 60) ++ pad2 (offset % 60) ++ b!"\n"

/-- position of the last occurrence: `git__memrchr` (src/util/util.h) -/
def lastIdx (c : UInt8) : Bytes → Option Nat
  | [] => none
  | x :: xs =>
    match lastIdx c xs with
    | some i => some (i + 1)
    | none => if x = c then some 0 else none

/-- the number of the time zone: src/libgit2/signature.c:373-380; a malformed one is zero -/
def zoneNumber (c : UInt8) (more : Bytes) : Int :=
  if c ≠ c!"-" ∧ c ≠ c!"+" then 0
  else match Strtol.strntol32 more 10 with
    | .ok v => v.1
    | _ => 0

/-- the time zone: src/libgit2/signature.c:368-394; `tz` is from `tz_start` on -/
def parseZone (tz : Bytes) : Res (Int × UInt8) :=
  match tz with
  | [] => .ub
  | c :: more =>
    let offset := zoneNumber c more
    let hours := offset.tdiv 100
    let mins := offset.tmod 100
    if hours ≤ 14 ∧ mins ≤ 59 then .ok (if c = c!"-" then -(hours * 60 + mins) else hours * 60 + mins, c) else .ok (0, 0)

/-- the time and zone: src/libgit2/signature.c:353-395; `tail` is from the closing bracket's successor on -/
def parseTime (tail : Bytes) : Res (Int × Int × UInt8) :=
  if 1 < tail.length then
    match Strtol.strntol64 (tail.drop 1) 10 with
    | .ok v => if 1 < v.2.length then parseZone (v.2.drop 1) >>= fun z => .ok (v.1, z) else .ok (v.1, 0, 0)
    | .err _ => .err EINVALID
    | .ub => .ub
  else .ok (0, 0, 0)

/-- the part of `git_signature__parse` after the header: src/libgit2/signature.c:341-395 -/
def parseLine (line : Bytes) : Res Signature :=
  match lastIdx c!"<" line, lastIdx c!">" line with
  | some s, some e =>
    if e ≤ s then .err EINVALID
    else
      parseTime (line.drop (e + 1)) >>= fun t =>
      .ok { name := cstr (trimmed (line.take s)), email := cstr (trimmed ((line.take e).drop (s + 1))), time := t.1, offset := t.2.1, sign := t.2.2 }
  | _, _ => .err EINVALID

/-- `git_signature__parse`: src/libgit2/signature.c:322-398: the signature, and the buffer behind it; a header of `NULL` is `[]` -/
def parse (buffer header : Bytes) (ender : UInt8) : Res (Signature × Bytes) :=
  if ender ≠ 0 ∧ ¬ buffer.contains ender then .err EINVALID
  else
    let line := if ender ≠ 0 then buffer.takeWhile (· ≠ ender) else buffer
    let rest := if ender ≠ 0 then (buffer.dropWhile (· ≠ ender)).drop 1 else []
    if header ≠ [] ∧ (line.length ≤ header.length ∨ line.take header.length ≠ header) then .err EINVALID
    else parseLine (line.drop header.length) >>= fun s => .ok (s, rest)

end Verif.Sig
