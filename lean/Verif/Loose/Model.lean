import Verif.Dec
import Verif.Strtol.Model
import Verif.Pack.Model
/-! # Loose objects: src/libgit2/odb.c (header), src/libgit2/odb_loose.c, src/libgit2/object.c (type names)

64-bit `size_t`. zlib is a parameter. Memory allocation succeeds. -/
namespace Verif.Loose

/-- `git_objects_table[i].str`: src/libgit2/object.c:35-50 -/
def table : List Bytes := [[], b!"commit", b!"tree", b!"blob", b!"tag"]
/-- `GIT_OBJECT_INVALID` [include/git2/types.h:75] -/
def INVALID : Int := -1

/-- `git_object_type2string`: src/libgit2/object.c:307-313 -/
def type2string (type : Int) : Bytes :=
  if type < 0 ∨ (type.toNat ≥ table.length) then [] else table.getD type.toNat []

/-- `git_object_type_is_valid`: src/libgit2/object.c:338-344 (the size is zero only for the first entry) -/
def typeIsValid (type : Int) : Bool :=
  if type < 0 ∨ type.toNat ≥ table.length then false else decide (type ≠ 0)

/-- `prefixcmp(str, str_n, prefix, false) == 0`: src/util/util.c:216-238; the string is its first `str_n` bytes -/
def prefixEq : Bytes → Bytes → Bool
  | [], [] => true
  | [], _ :: _ => false
  | _ :: _, [] => true
  | s :: str, p :: pre => if s ≠ p then false else prefixEq str pre

/-- the loop of `git_object_stringn2type`: src/libgit2/object.c:330-333 -/
def stringn2typeLoop (str : Bytes) : Nat → List Bytes → Int
  | _, [] => INVALID
  | i, n :: ns => if n ≠ [] ∧ prefixEq str n then (i : Int) else stringn2typeLoop str (i + 1) ns

/-- `git_object_stringn2type`: src/libgit2/object.c:323-336 -/
def stringn2type (str : Bytes) : Int :=
  if str.length = 0 ∨ str.head? = some 0 then INVALID else stringn2typeLoop str 0 table

/-- `(int64_t)len` [src/libgit2/odb.c:97] -/
def toI64 (n : Nat) : Int := if n % 2 ^ 64 < 2 ^ 63 then (n % 2 ^ 64 : Nat) else ((n % 2 ^ 64 : Nat) : Int) - 2 ^ 64

/-- `git_odb__format_object_header` with a buffer of `hdrSize` bytes: src/libgit2/odb.c:86-107. The result is the `*written` bytes
of the header (the last one is the NUL stored by `snprintf`). -/
def formatHeader (hdrSize len : Nat) (type : Int) : Res Bytes :=
  let hdrMax := if hdrSize > 2147483645 then 2147483645 else hdrSize
  let text := type2string type ++ c!" " :: decimalInt (toI64 len)
  if text.length ≥ hdrMax then .err (-1) else .ok (text ++ [0])

/-- `parse_header`: src/libgit2/odb_loose.c:148-199: type, size, length of the header -/
def parseHeader (data : Bytes) : Res (Int × Nat × Nat) :=
  let name := data.takeWhile (· ≠ c!" ")
  if name.length = data.length then .err (-1)
  else
    let type := stringn2type name
    let sizeIdx := name.length + 1
    let num := (data.drop sizeIdx).takeWhile (· ≠ 0)
    if sizeIdx + num.length = data.length then .err (-1)
    else match Strtol.strntol64 num 10 with
      | .err e => .err (-1)
      | .ub => .ub
      | .ok (size, _) => if size < 0 then .err (-1) else .ok (type, size.toNat, sizeIdx + num.length + 1)

/-- `MAX_HEADER_LEN`: src/libgit2/odb_loose.c:25 -/
def MAX_HEADER_LEN : Nat := 64

/-- the stream functions: what a buffer decompresses to if it is exactly one complete zlib stream, and compression [src/util/zstream.h:14-50 (the interface)] -/
structure Zlib where
  inflate : Bytes → Option Bytes
  deflate : Bytes → Bytes

/-- `is_zlib_compressed_data`: src/libgit2/odb_loose.c:201-210 -/
def isZlib (data : Bytes) : Bool :=
  match data with
  | a :: b :: _ => a.toNat &&& 0x8F = 0x08 ∧ ((a.toNat <<< 8) + b.toNat) % 31 = 0
  | _ => false

/-- a `git_rawobj`: type, `len`, and the bytes at `data` [src/libgit2/odb.h:34-38] -/
structure Raw where
  type : Int
  len : Nat
  data : Bytes
  deriving DecidableEq, Repr

/-- `read_loose_standard`: src/libgit2/odb_loose.c:276-343. Simplified: a buffer that is not exactly one complete stream is an
error from the start (the code may have copied part of it before it finds out). The buffer at `body` has `size + 1` bytes;
`size - bodyLen` wraps round below zero. -/
def readStandard (z : Zlib) (file : Bytes) : Res Raw :=
  match z.inflate file with
  | none => .err (-1)
  | some out =>
    let head := out.take MAX_HEADER_LEN
    match parseHeader head with
    | .err e => .err e
    | .ub => .ub
    | .ok (type, size, headLen) =>
      if ¬ typeIsValid type then .err (-1)
      else
        let body := head.drop headLen
        if body.length > size + 1 then .ub
        else if body.length = size + 1 then
          (if out.length > MAX_HEADER_LEN then .ub else .ok ⟨type, size, body.take size⟩)
        else
          let more := (out.drop MAX_HEADER_LEN).take (size - body.length)
          if out.length > MAX_HEADER_LEN + more.length then .err (-1)
          else .ok ⟨type, size, body ++ more ++ List.replicate (size - body.length - more.length) 0⟩

/-- `read_loose_packlike`: src/libgit2/odb_loose.c:228-274. `parse_header_packlike` (:107-149) is `packfile_unpack_header1`
(src/libgit2/pack.c:413-448) but for its error codes and the test for an empty buffer. The `len` of the result is the
announced size, not the number of bytes decompressed. -/
def readPacklike (z : Zlib) (file : Bytes) : Res Raw :=
  match file with
  | [] => .err (-1)
  | _ =>
    match Pack.unpackHeader1 file with
    | .err _ => .err (-1)
    | .ub => .ub
    | .ok (type, size, headLen) =>
      if ¬ typeIsValid type ∨ headLen > file.length then .err (-1)
      else if size + 1 ≥ 2 ^ 64 then .err (-1)
      else match z.inflate (file.drop headLen) with
        | none => .err (-1)
        | some body => .ok ⟨type, size, body⟩

/-- `read_loose`: src/libgit2/odb_loose.c:345-371, given the bytes of the file -/
def readLoose (z : Zlib) (file : Bytes) : Res Raw :=
  if ¬ isZlib file then readPacklike z file else readStandard z file

/-- `loose_backend__write`: src/libgit2/odb_loose.c:1082-1119: the bytes that end up in the file (C17 is about the way there) -/
def writeLoose (z : Zlib) (type : Int) (data : Bytes) : Res Bytes :=
  match formatHeader MAX_HEADER_LEN data.length type with
  | .ok header => .ok (z.deflate (header ++ data))
  | .err e => .err e
  | .ub => .ub

/-- `git_odb__hashobj`: src/libgit2/odb.c:108-148, with the hash function as a parameter -/
def hashObj (hash : Bytes → Bytes) (raw : Raw) : Res Bytes :=
  if ¬ typeIsValid raw.type then .err (-1)
  else if raw.data.length < raw.len then .ub
  else match formatHeader 64 raw.len raw.type with
    | .ok header => .ok (hash (header ++ raw.data.take raw.len))
    | .err e => .err e
    | .ub => .ub

end Verif.Loose
