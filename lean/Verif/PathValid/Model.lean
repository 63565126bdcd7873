import Verif.Utf8.Model
/-! # Validity of paths: src/libgit2/path.c, src/util/fs_path.c (not Windows, not macOS)

A path is a NUL-terminated buffer, given by its bytes before the terminating NUL; `git_path_is_valid` (a C string) and
`git_path_str_is_valid` (a `git_str`, which may have NULs inside) agree on paths without NUL. A component is given by the text `s` from its
first byte to the end of the path and by its length; reading `s` beyond its end gives the terminating NUL (no function here reads behind
a NUL). A set of flags is a structure of booleans. -/
namespace Verif.PathValid

/-- the flags `GIT_FS_PATH_REJECT_*` and `GIT_PATH_REJECT_*`: src/util/fs_path.h:616-625, src/libgit2/path.h:15-18. `LONG_PATHS` has no
effect here (`length_flags` removes it, src/libgit2/path.c:296-300). -/
structure Flags where
  empty : Bool := false
  traversal : Bool := false
  slash : Bool := false
  backslash : Bool := false
  trailingDot : Bool := false
  trailingSpace : Bool := false
  trailingColon : Bool := false
  dos : Bool := false
  ntChars : Bool := false
  dotGit : Bool := false
  literal : Bool := false
  hfs : Bool := false
  ntfs : Bool := false
  deriving DecidableEq, Repr

/-- `GIT_PATH_REJECT_WORKDIR_DEFAULTS`: src/libgit2/path.h:21-22, src/util/fs_path.h:644-646 -/
def workdirDefaults : Flags := { empty := true, traversal := true, dotGit := true }
/-- `GIT_PATH_REJECT_INDEX_DEFAULTS`: src/libgit2/path.h:25-26 -/
def indexDefaults : Flags := { traversal := true, dotGit := true }
/-- the flags of `valid_entry_name`: src/libgit2/tree.c:60-63 -/
def treeEntryFlags : Flags := { traversal := true, dotGit := true, slash := true }

/-- reading a byte of a C string [no code: `*s`] -/
def peek (s : Bytes) (i : Nat) : UInt8 := s.getD i 0

/-- `tolower` in the C locale on a byte: src/util/ctype_compat.h:59 -/
def lower (c : UInt8) : UInt8 := if c!"A" ≤ c ∧ c ≤ c!"Z" then c + 32 else c

/-- the code points HFS+ ignores: src/libgit2/path.c:31-49 -/
def ignored : List Nat :=
  [0x200c, 0x200d, 0x200e, 0x200f, 0x202a, 0x202b, 0x202c, 0x202d, 0x202e, 0x206a, 0x206b, 0x206c, 0x206d, 0x206e, 0x206f, 0xfeff]

/-- `next_hfs_char`: src/libgit2/path.c:20-59; the character and the rest of the text. `git__tolower` makes the code point a byte.
(`git_utf8_iterate` is undefined only for an empty text.) -/
def nextHfs : Nat → Bytes → Int × Bytes
  | 0, s => (0, s)
  | fuel + 1, s =>
    if s = [] then (0, s)
    else match Utf8.iterate s with
      | .ok (n, v) => if v ∈ ignored then nextHfs fuel (s.drop n) else ((lower (UInt8.ofNat v)).toNat, s.drop n)
      | _ => (-1, s)

/-- the loop of `validate_dotgit_hfs_generic`: src/libgit2/path.c:73-77; `none`: the name is valid. The character is cut to a `char`,
which changes neither the bytes 0..255 nor makes -1 an ASCII letter. -/
def hfsNeedle : Bytes → Bytes → Option Bytes
  | [], s => some s
  | c :: needle, s =>
    let r := nextHfs (s.length + 1) s
    if r.1 ≠ c.toNat then none else hfsNeedle needle r.2

/-- `validate_dotgit_hfs_generic`: src/libgit2/path.c:61-83 -/
def validHfs (comp needle : Bytes) : Bool :=
  let r := nextHfs (comp.length + 1) comp
  if r.1 ≠ (c!".").toNat then true
  else match hfsNeedle needle r.2 with
    | none => true
    | some s => (nextHfs (s.length + 1) s).1 ≠ 0

/-- `strncasecmp(a, b, n) == 0` for a text `b` of `n` bytes without NUL [used at src/libgit2/path.c:106, 165, 170] -/
def caseEq : Bytes → Bytes → Bool
  | _, [] => true
  | s, b :: bs => lower (peek s 0) = lower b && caseEq (s.drop 1) bs

/-- `git_repository__reserved_names_win32`: src/libgit2/repository.c:83-87 -/
def reserved : List Bytes := [b!".git", b!"GIT~1"]

/-- `validate_dotgit_ntfs`: src/libgit2/path.c:90-130 -/
def validNtfs (s : Bytes) (len : Nat) : Bool :=
  match reserved.find? (fun r => decide (len ≥ r.length) && caseEq s r) with
  | none => true
  | some r =>
    if peek s r.length = c!"\\" ∨ peek s r.length = c!":" then false
    else !(((s.take len).drop r.length).all fun c => c = c!" " ∨ c = c!".")

/-- `ntfs_end_of_filename`: src/libgit2/path.c:141-153 -/
def ntfsEnd : Bytes → Bool
  | [] => true
  | c :: cs => if c = c!":" then true else if c ≠ c!" " ∧ c ≠ c!"." then false else ntfsEnd cs

/-- the loop for the fallback names in `validate_dotgit_ntfs_generic`: src/libgit2/path.c:174-193, from position `i` on; `true`: all
eight characters match. `n` is the number of positions left. -/
def fallback (pfix : Bytes) (s : Bytes) : Nat → Nat → Bool → Bool
  | 0, _, _ => true
  | n + 1, i, sawTilde =>
    let c := peek s i
    if c = 0 then false
    else if sawTilde then
      if c < c!"0" ∨ c > c!"9" then false else fallback pfix s n (i + 1) true
    else if c = c!"~" then
      if peek s (i + 1) < c!"1" ∨ peek s (i + 1) > c!"9" then false else fallback pfix s n (i + 1) true
    else if i ≥ 6 then false
    else if c > 127 then false
    else if lower c ≠ peek pfix i then false
    else fallback pfix s n (i + 1) false

/-- `validate_dotgit_ntfs_generic`: src/libgit2/path.c:155-195 -/
def validNtfsGeneric (s : Bytes) (len : Nat) (file hash : Bytes) : Bool :=
  if peek s 0 = c!"." ∧ len ≥ file.length ∧ caseEq (s.drop 1) file then !(ntfsEnd (s.drop (file.length + 1)))
  else if caseEq s (file.take 6) ∧ peek s 6 = c!"~" ∧ c!"1" ≤ peek s 7 ∧ peek s 7 ≤ c!"4" then !(ntfsEnd (s.drop 8))
  else if fallback hash s 8 0 false then !(ntfsEnd (s.drop 8))
  else true

/-- the file names of `gitfiles`: src/libgit2/path.c:335-343 -/
inductive GitFile | ignore | modules | attributes deriving DecidableEq, Repr
/-- [src/libgit2/path.c:334-342] -/
def GitFile.name : GitFile → Bytes
  | .ignore => b!"gitignore"
  | .modules => b!"gitmodules"
  | .attributes => b!"gitattributes"
/-- [src/libgit2/path.c:334-342] -/
def GitFile.hash : GitFile → Bytes
  | .ignore => b!"gi250a"
  | .modules => b!"gi7eba"
  | .attributes => b!"gi7d29"

/-- `git_path_is_gitfile` for the file systems NTFS and HFS: src/libgit2/path.c:345-377 -/
def isGitfileNtfs (s : Bytes) (len : Nat) (f : GitFile) : Bool := !(validNtfsGeneric s len f.name f.hash)
/-- [src/libgit2/path.c:369] -/
def isGitfileHfs (s : Bytes) (len : Nat) (f : GitFile) : Bool := !(validHfs (s.take len) f.name)

/-- `common_prefix_icase`: src/libgit2/path.c:201-213, compared with `len` by its caller; `n` is `len` -/
def commonPrefix (s pre : Bytes) : Nat → Nat
  | 0 => 0
  | n + 1 => if lower (peek s 0) = lower (peek pre 0) then 1 + commonPrefix (s.drop 1) (pre.drop 1) n else 0

/-- `validate_repo_component`: src/libgit2/path.c:215-261; `link` is `S_ISLNK(data->file_mode)` -/
def validRepoComponent (f : Flags) (link : Bool) (s : Bytes) (len : Nat) : Bool :=
  if f.hfs ∧ !(validHfs (s.take len) b!"git") then false
  else if f.hfs ∧ link ∧ isGitfileHfs s len .modules then false
  else if f.ntfs ∧ !(validNtfs s len) then false
  else if f.ntfs ∧ link ∧ isGitfileNtfs s len .modules then false
  else if !f.hfs ∧ !f.ntfs ∧ f.literal then
    if len ≥ 4 ∧ peek s 0 = c!"." ∧ (peek s 1 = c!"g" ∨ peek s 1 = c!"G") ∧ (peek s 2 = c!"i" ∨ peek s 2 = c!"I") ∧
        (peek s 3 = c!"t" ∨ peek s 3 = c!"T") then
      if len = 4 then false
      else if link ∧ commonPrefix s b!".gitmodules" len = len then false
      else true
    else true
  else true

/-- `validate_dospath`: src/util/fs_path.c:1560-1577 -/
def validDos (s : Bytes) (len : Nat) (name : Bytes) (num : Bool) : Bool :=
  let last := if num then 4 else 3
  if len < last ∨ !(caseEq s name) then true
  else if num ∧ (peek s 3 < c!"1" ∨ peek s 3 > c!"9") then true
  else len > last ∧ peek s last ≠ c!"." ∧ peek s last ≠ c!":"

/-- `validate_char`: src/util/fs_path.c:1579-1604 -/
def validChar (f : Flags) (c : UInt8) : Bool :=
  if f.backslash ∧ c = c!"\\" then false
  else if f.slash ∧ c = c!"/" then false
  else if f.ntChars then
    if c < 32 then false else !(c ∈ b!"<>:\"|?*")
  else true

/-- `validate_component`: src/util/fs_path.c:1615-1654 -/
def validComponent (f : Flags) (s : Bytes) (len : Nat) : Bool :=
  if len = 0 then !f.empty
  else if f.traversal ∧ len = 1 ∧ peek s 0 = c!"." then false
  else if f.traversal ∧ len = 2 ∧ peek s 0 = c!"." ∧ peek s 1 = c!"." then false
  else if f.trailingDot ∧ peek s (len - 1) = c!"." then false
  else if f.trailingSpace ∧ peek s (len - 1) = c!" " then false
  else if f.trailingColon ∧ peek s (len - 1) = c!":" then false
  else if f.dos then
    validDos s len b!"CON" false && validDos s len b!"PRN" false && validDos s len b!"AUX" false && validDos s len b!"NUL" false &&
      validDos s len b!"COM" true && validDos s len b!"LPT" true
  else true

/-- `git_fs_path_str_is_valid_ext`, the loop and what follows it: src/util/fs_path.c:1683-1718, with `validate_repo_component` for the
components. `start` is the text from the component's first byte on, `len` is `c - start`, the last argument is the text from `c` on. -/
def scan (f : Flags) (link : Bool) (start : Bytes) (len : Nat) : Bytes → Bool
  | [] => validComponent f start len && validRepoComponent f link start len
  | c :: rest =>
    if c = 0 then false
    else if !(validChar f c) then false
    else if c ≠ c!"/" then scan f link start (len + 1) rest
    else if !(validComponent f start len) then false
    else if !(validRepoComponent f link start len) then false
    else scan f link rest 0 rest

/-- the repository's settings `core.protectHFS` and `core.protectNTFS` (`none`: reading it failed) [src/libgit2/path.c:263-287] -/
structure Protect where
  hfs : Option Bool
  ntfs : Option Bool
  deriving DecidableEq, Repr

/-- `dotgit_flags`: src/libgit2/path.c:263-287; `repo` is `none` without a repository -/
def dotgitFlags (repo : Option Protect) (f : Flags) : Flags :=
  let f := { f with literal := true }
  match repo with
  | none => { f with ntfs := true }
  | some p =>
    let f := if p.hfs = some true then { f with hfs := true } else f
    if p.ntfs = some true then { f with ntfs := true } else f

/-- `git_path_str_is_valid`: src/libgit2/path.c:311-332 -/
def isValid (repo : Option Protect) (path : Bytes) (link : Bool) (f : Flags) : Bool :=
  let f := if f.dotGit then dotgitFlags repo f else f
  if f = {} then true else scan f link path 0 path

/-- `valid_entry_name`: src/libgit2/tree.c:57-62 -/
def validEntryName (repo : Option Protect) (name : Bytes) : Bool := name ≠ [] && isValid repo name false treeEntryFlags

end Verif.PathValid
