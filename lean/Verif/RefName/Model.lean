import Verif.Base
/-! # Reference names: src/libgit2/refs.c

A name is the list of the bytes before the terminating NUL.  Unicode precomposition (GIT_REFERENCE_FORMAT__PRECOMPOSE_UNICODE, macOS) is not
modelled. -/
namespace Verif.RefName

/-- GIT_EINVALIDSPEC, GIT_EBUFS: include/git2/errors.h:36,41. -/
def EINVALIDSPEC : Int := -12
/-- [include/git2/errors.h:35] -/
def EBUFS : Int := -6

/-- The flags of `git_reference_format_t`: include/git2/refs.h:663-692, and GIT_REFERENCE_FORMAT__VALIDATION_DISABLE: src/libgit2/refs.h:58. -/
structure Flags where
  onelevel : Bool
  pattern : Bool
  shorthand : Bool
  noValidation : Bool := false
  deriving DecidableEq, Repr

/-- `is_valid_ref_char`: src/libgit2/refs.c:820-836. `char` is signed: as `unsigned` the bytes from 128 on are large. -/
def isValidRefChar (ch : UInt8) : Bool :=
  if ch ≤ 32 then false
  else !(ch = c!"~" || ch = c!"^" || ch = c!":" || ch = c!"\\" || ch = c!"?" || ch = c!"[")

/-- the loop of `ensure_segment_validity`: src/libgit2/refs.c:851-870; the number of bytes passed, `none` for the jump to -1 -/
def segLoop (cur : Bytes) (prev : UInt8) (glob : Bool) : Option Nat :=
  match cur with
  | [] => some 0
  | c :: cs =>
    if c = c!"/" then some 0
    else if !isValidRefChar c then none
    else if prev = c!"." && c = c!"." then none
    else if prev = c!"@" && c = c!"{" then none
    else if c = c!"*" then
      if !glob then none else (segLoop cs c false).map (· + 1)
    else (segLoop cs c glob).map (· + 1)

/-- GIT_FILELOCK_EXTENSION: src/util/filebuf.h:18. -/
def lockExt : Bytes := b!".lock"

/-- `ensure_segment_validity`: src/libgit2/refs.c:838-881. -/
def ensureSegmentValidity (name : Bytes) (glob caret : Bool) : Option Nat :=
  if name.head? = some c!"." then none
  else
    let skip := if caret && name.head? = some c!"^" then 1 else 0
    match segLoop (name.drop skip) 0 glob with
    | none => none
    | some k =>
      let segLen := skip + k
      if lockExt.length ≤ segLen && ((name.take segLen).drop (segLen - lockExt.length) == lockExt) then none
      else some segLen

/-- the loop of `is_valid_normalized_name`: src/libgit2/refs.c:891-899 -/
def capsLoop (first : Bool) : Bytes → Bool
  | [] => true
  | c :: cs =>
    if first && c = c!"^" then capsLoop false cs
    else if (c < c!"A" || c > c!"Z") && c ≠ c!"_" then false
    else capsLoop false cs

/-- `is_valid_normalized_name`: src/libgit2/refs.c:883-905, of the first `len` bytes; `len` 0 violates an assertion (returns -1, which is true) -/
def isValidNormalizedName (name : Bytes) (len : Nat) : Bool :=
  if len = 0 then true
  else if !capsLoop true (name.take len) then false
  else if name.head? = some c!"_" || name[len - 1]? = some c!"_" then false
  else true

/-- `git_str_joinpath(buf, buf, b)`: src/util/str.c:760-807 -/
def joinpath (a b : Bytes) : Bytes :=
  if a = [] then b
  else
    let b := b.dropWhile (· == c!"/")
    if a.getLast? ≠ some c!"/" then a ++ [c!"/"] ++ b else a ++ b

/-- what the loop of `git_reference__normalize_name` leaves behind [src/libgit2/refs.c:908-1040] -/
structure LoopEnd where
  current : Bytes
  /-- the byte before `current`, if there is one -/
  before : Option UInt8
  segLen : Nat
  count : Nat
  buf : Bytes
  deriving DecidableEq, Repr

/-- the main loop of `git_reference__normalize_name`: src/libgit2/refs.c:952-997; `none` is the jump to `cleanup`.
`norm`: is there a buffer; `pat`: GIT_REFERENCE_FORMAT_REFSPEC_PATTERN in `process_flags`. -/
def loop (norm : Bool) (current : Bytes) (before : Option UInt8) (pat caret : Bool) (buf : Bytes) (count : Nat) : Option LoopEnd :=
  match ensureSegmentValidity current pat caret with
  | none => none
  | some segLen =>
    let pat' := if 0 < segLen && (current.take segLen).contains c!"*" then false else pat
    let buf' := if 0 < segLen && norm then (joinpath buf current).take (buf.length + segLen + (if count = 0 then 0 else 1)) else buf
    let count' := if 0 < segLen then count + 1 else count
    if segLen = 0 && !norm then none
    else if h : current.length ≤ segLen then some ⟨current, before, segLen, count', buf'⟩
    else loop norm (current.drop (segLen + 1)) current[segLen]? pat' false buf' count'
termination_by current.length
decreasing_by simp only [List.length_drop]; omega

/-- `git_reference__normalize_name`: src/libgit2/refs.c:908-1040. `norm` says whether a buffer is passed. Reading `current[-1]` at the start of
the name would be undefined. -/
def normalize (norm : Bool) (name : Bytes) (flags : Flags) : Res Bytes :=
  if flags.noValidation then .ok name
  else if name.head? = some c!"/" then .err EINVALIDSPEC
  else
    match loop norm name none flags.pattern true [] 0 with
    | none => .err EINVALIDSPEC
    | some e =>
      if e.segLen = 0 && e.count = 0 then .err EINVALIDSPEC
      else
        match (if e.segLen = 0 then e.before else e.current[e.segLen - 1]?) with
        | none => .ub
        | some last =>
          if last = c!"." then .err EINVALIDSPEC
          else if last = c!"/" then .err EINVALIDSPEC
          else if e.count = 1 && !flags.onelevel then .err EINVALIDSPEC
          else if e.count = 1 && !flags.shorthand && !(isValidNormalizedName name e.segLen || (flags.pattern && name = b!"*")) then
            .err EINVALIDSPEC
          else if 1 < e.count && isValidNormalizedName name (name.takeWhile (· != c!"/")).length then .err EINVALIDSPEC
          else .ok e.buf

/-- `git_reference_normalize_name`: src/libgit2/refs.c:1042-1070. The result is what is left in the caller's buffer, before the NUL.
A `bufferSize` of 0 passes the length check (unsigned) and is then refused by an assertion. -/
def normalizeName (bufferSize : Nat) (name : Bytes) (flags : Flags) : Res Bytes := do
  let buf ← normalize true name flags
  if bufferSize = 0 then .err (-1)
  else if buf.length > bufferSize - 1 then .err EBUFS
  else .ok buf

/-- `git_reference__name_is_valid`: src/libgit2/refs.c:1341-1360. -/
def nameIsValid (name : Bytes) (flags : Flags) : Res Bool :=
  match normalize false name flags with
  | .ok _ => .ok true
  | .err e => if e = EINVALIDSPEC then .ok false else .err e
  | .ub => .ub

end Verif.RefName
