import Verif.Cmp
import Verif.Strtol.Model
import Verif.Sort.Model
import Verif.HashMap.Model
/-! # Model of `src/libgit2/tree.c` (parser, tree builder, writer, lookup by name) and `git_fs_path_cmp`

File names are modelled without their terminating NUL (a C string contains none). `filename_len` is the `uint16_t` field, so a name
of 65536 bytes or more has a wrong one: `TREE_ENTRY_CHECK_NAMELEN` (tree.c:21-22) sets an error message and goes on.
SHA-1 object ids (20 bytes). -/
namespace Verif.Tree

/-- `GIT_EINVALID` [include/git2/errors.h:57] -/
def EINVALID : Int := -21
/-- [include/git2/errors.h:32] -/
def ENOTFOUND : Int := -3
/-- `GIT_OID_SHA1_SIZE` [include/git2/oid.h:43] -/
def OID_SIZE : Nat := 20

/-- `struct git_tree_entry`: src/libgit2/tree.h:19-24. `name` is the string `filename` points to. -/
structure Entry where
  attr : Nat
  name : Bytes
  oid : Bytes
  deriving DecidableEq, Repr

/-- the field `filename_len`, a `uint16_t`: src/libgit2/tree.h:21, tree.c:105 -/
def Entry.flen (e : Entry) : Nat := e.name.length % 65536

/-- the byte at an offset of a NUL terminated string, for an offset up to its length [no code: `s[i]`] -/
def charAt (s : Bytes) (i : Nat) : UInt8 := (s[i]?).getD 0

/-! ## Parsing -/

/-- `parse_mode`: src/libgit2/tree.c:375-392. Returns the mode and the rest of the buffer. -/
def parseMode (buf : Bytes) : Res (Nat × Bytes) :=
  match buf with
  | [] => .err (-1)
  | c :: _ =>
    if Strtol.isSpace c then .err (-1)
    else match Strtol.strntol32 buf 8 with
      | .err e => .err e
      | .ub => .ub
      | .ok (mode, rest) => if mode < 0 ∨ 65535 < mode then .err (-1) else .ok (mode.toNat, rest)

/-- after the mode: the space, the name up to NUL and the id: src/libgit2/tree.c:415-438 -/
def parseRest (attr : Nat) (buf : Bytes) : Res (Entry × Bytes) :=
  match buf with
  | [] => .err EINVALID
  | c :: buf =>
    if c ≠ c!" " then .err EINVALID
    else match buf.findIdx? (· = 0) with     -- memchr
      | none => .err EINVALID
      | some len =>
        if len = 0 ∨ 65535 < len then .err EINVALID
        else if buf.length - (len + 1) < OID_SIZE then .err EINVALID
        else do
          let name ← slice buf 0 len
          let oid ← slice buf (len + 1) OID_SIZE
          .ok (⟨attr, name, oid⟩, buf.drop (len + 1 + OID_SIZE))

/-- one entry: src/libgit2/tree.c:407-439 -/
def parseEntry (buf : Bytes) : Res (Entry × Bytes) :=
  match parseMode buf with
  | .err _ => .err EINVALID
  | .ub => .ub
  | .ok (attr, buf) => parseRest attr buf

/-- the loop of `git_tree__parse_raw`: src/libgit2/tree.c:406-440 (fuel: each round consumes at least one byte) -/
def parseLoop : Nat → Bytes → Res (List Entry)
  | 0, _ => .ub
  | fuel + 1, buf =>
    match buf with
    | [] => .ok []
    | _ :: _ => match parseEntry buf with
      | .err e => .err e
      | .ub => .ub
      | .ok (e, rest) => match parseLoop fuel rest with
        | .ok es => .ok (e :: es)
        | .err x => .err x
        | .ub => .ub

/-- `git_tree__parse_raw`: src/libgit2/tree.c:394-443 -/
def parseRaw (data : Bytes) : Res (List Entry) := parseLoop (data.length + 1) data

/-! ## Order of entries -/

/-- `S_ISDIR(e->attr) && !S_ISGITLINK(e->attr)`: src/libgit2/tree.h:40-43 -/
def Entry.isTree (e : Entry) : Bool := (e.attr &&& 0o170000 = 0o040000) ∧ ¬ (e.attr &&& 0o170000 = 0o160000)

/-- the byte compared when one name is a prefix of the other: src/util/fs_path.c:889-896 -/
def endChar (name : Bytes) (isdir : Bool) (len : Nat) : UInt8 :=
  if charAt name len = 0 ∧ isdir then c!"/" else charAt name len

/-- `git_fs_path_cmp` with `git__strncmp`: src/util/fs_path.c:876-899 -/
def fsPathCmp (name1 : Bytes) (len1 : Nat) (isdir1 : Bool) (name2 : Bytes) (len2 : Nat) (isdir2 : Bool) : Int :=
  let len := if len1 < len2 then len1 else len2
  let cmp := bcmp (name1.take len) (name2.take len)
  if cmp ≠ 0 then cmp
  else
    let c1 := endChar name1 isdir1 len
    let c2 := endChar name2 isdir2 len
    if c1 < c2 then -1 else if c2 < c1 then 1 else 0

/-- `entry_sort_cmp`: src/libgit2/tree.c:64-73 -/
def entrySortCmp (e1 e2 : Entry) : Int := fsPathCmp e1.name e1.flen e1.isTree e2.name e2.flen e2.isTree

/-! ## Writing -/

/-- `printf("%o")` [used at src/libgit2/tree.c:540] -/
def octal (n : Nat) : Bytes :=
  if n < 8 then [UInt8.ofNat (48 + n)] else octal (n / 8) ++ [UInt8.ofNat (48 + n % 8)]
termination_by n

/-- one record: src/libgit2/tree.c:540-542. `filename_len + 1` bytes of the name are put, the NUL included. -/
def writeEntry (e : Entry) : Bytes :=
  octal e.attr ++ [c!" "] ++ (e.name ++ [0]).take (e.flen + 1) ++ e.oid

/-- the record loop: src/libgit2/tree.c:537-547 -/
def writeEntries (es : List Entry) : Bytes := es.flatMap writeEntry

/-- `git_vector_sort` on a vector of pointers to the entries: the elements sorted are the pointers, which the comparison
dereferences: src/libgit2/tree.c:535, src/util/vector.c:137-146 -/
def sortEntries (es : List Entry) : Res (List Entry) :=
  match Sort.tsort (fun (a b : { e // e ∈ es }) => entrySortCmp a.1 b.1) es.attach with
  | .ok l => .ok (l.map (·.1))
  | .err e => .err e
  | .ub => .ub

/-! ## Tree builder -/

/-- `struct git_treebuilder`'s map: src/libgit2/tree.h:32-38. Values are the entries (the C map holds pointers to them). -/
abbrev Bld := HashMap.Map Bytes Entry

/-- what the repository answers about names and objects: `git_path_is_valid` with the three flags used (tree.c:60-61) and
`git_object__is_valid` (tree.c:502). `hash` is the string hash of the map. -/
structure Env where
  pathValid : Bytes → Bool
  objectValid : Bytes → Nat → Bool
  hash : Bytes → Nat

/-- `valid_filemode`: src/libgit2/tree.c:26-33 -/
def validFilemode (m : Nat) : Bool := m = 0o040000 ∨ m = 0o100644 ∨ m = 0o100755 ∨ m = 0o120000 ∨ m = 0o160000

/-- `valid_entry_name`: src/libgit2/tree.c:57-62 -/
def validEntryName (env : Env) (name : Bytes) : Bool := name ≠ [] ∧ env.pathValid name

/-- `otype_from_mode`: src/libgit2/tree.c:476-486 (tree 2, commit 1, blob 3) -/
def otypeFromMode (m : Nat) : Nat := if m = 0o040000 then 2 else if m = 0o160000 then 1 else 3

/-- `check_entry`: src/libgit2/tree.c:488-504 -/
def checkEntry (env : Env) (name oid : Bytes) (mode : Nat) : Bool :=
  validFilemode mode ∧ validEntryName env name ∧ ¬ (∀ b ∈ oid, b = 0) ∧
  (mode = 0o160000 ∨ env.objectValid oid (otypeFromMode mode))

/-- `git_treebuilder_insert`: src/libgit2/tree.c:781-817. An existing entry is changed in place. -/
def insert (env : Env) (h : Bld) (name oid : Bytes) (mode : Nat) : Res Bld :=
  if checkEntry env name oid mode then
    match HashMap.idx env.hash h name with
    | .ok i => match h.kv i with
      | none => .ub
      | some (k, e) => .ok { h with kv := HashMap.upd h.kv i (some (k, { e with oid := oid, attr := mode % 65536 })) }
    | .err _ => HashMap.put env.hash h name ⟨mode % 65536, name, oid⟩
    | .ub => .ub
  else .err (-1)

/-- `append_entry` without validation: src/libgit2/tree.c:560-586 -/
def appendEntry (env : Env) (h : Bld) (e : Entry) : Res Bld := HashMap.put env.hash h e.name e

/-- `git_treebuilder_new` with a source tree: src/libgit2/tree.c:742-779 -/
def new (env : Env) : Bld → List Entry → Res Bld
  | h, [] => .ok h
  | h, e :: es => match appendEntry env h e with
    | .ok h => new env h es
    | .err x => .err x
    | .ub => .ub

/-- `git_treebuilder_get`: src/libgit2/tree.c:819-835 -/
def get (env : Env) (h : Bld) (name : Bytes) : Option Entry :=
  match HashMap.get env.hash h name with
  | .ok e => some e
  | _ => none

/-- `git_treebuilder_remove`: src/libgit2/tree.c:837-848 -/
def remove (env : Env) (h : Bld) (name : Bytes) : Res Bld :=
  match get env h name with
  | none => .err (-1)
  | some _ => match HashMap.remove env.hash h name with
    | .ok h => .ok h
    | .err _ => .ok h
    | .ub => .ub

/-- one round of the loop of `git_treebuilder_filter` at bucket `i`: src/libgit2/tree.c:870-875 -/
def filterStep (env : Env) (f : Entry → Bool) (h : Bld) (i : Nat) : Res Bld :=
  if h.flag i = .live then
    match h.kv i with
    | none => .ub
    | some (k, e) =>
      if f e then
        match HashMap.remove env.hash h k with
        | .ok h => .ok h
        | .err _ => .ok h
        | .ub => .ub
      else .ok h
  else .ok h

/-- the loop of `git_treebuilder_filter`, from bucket `i` on, `k` buckets left [src/libgit2/tree.c:858-878] -/
def filterLoop (env : Env) (f : Entry → Bool) : Nat → Nat → Bld → Res Bld
  | 0, _, h => .ok h
  | k + 1, i, h => match filterStep env f h i with
    | .ok h => filterLoop env f k (i + 1) h
    | .err e => .err e
    | .ub => .ub

/-- `git_treebuilder_filter`: src/libgit2/tree.c:858-878 (entries for which the callback returns non-zero are removed) -/
def filter (env : Env) (f : Entry → Bool) (h : Bld) : Res Bld := filterLoop env f h.n 0 h

/-- `git_treebuilder_clear`: src/libgit2/tree.c:880-893 -/
def clear (h : Bld) : Bld := HashMap.clear h

/-- `git_treebuilder__write_with_buffer`: src/libgit2/tree.c:506-557, up to the call of `git_odb_write` with these bytes -/
def write (h : Bld) : Res Bytes :=
  match sortEntries ((HashMap.entries h).map (·.2)) with
  | .ok es => .ok (writeEntries es)
  | .err e => .err e
  | .ub => .ub

/-! ## Lookup by name -/

/-- `homing_search_cmp`: src/libgit2/tree.c:122-135. `klen` is `ksearch->filename_len`. -/
def homingCmp (key : Bytes) (klen : Nat) (e : Entry) : Int :=
  let len := if klen < e.flen then klen else e.flen
  bcmp (key.take len) (e.name.take len)

/-- the test of tree.c:182-183 and :204-205; `memcmp` of `filename_len` bytes -/
def nameMatches (name : Bytes) (e : Entry) : Bool := e.flen = name.length ∧ bcmp name (e.name.take name.length) = 0

/-- the forward scan: src/libgit2/tree.c:179-191 -/
def scanFwd (name : Bytes) (klen : Nat) (es : List Entry) : Nat → Nat → Res (Option Nat)
  | 0, _ => .ub
  | fuel + 1, i =>
    if i < es.length then
      match es[i]? with
      | none => .ub
      | some e =>
        if homingCmp name klen e < 0 then .ok none
        else if nameMatches name e then .ok (some i)
        else scanFwd name klen es fuel (i + 1)
    else .ok none

/-- the backward scan, the next index to look at being `i - 1`: src/libgit2/tree.c:193-211 -/
def scanBwd (name : Bytes) (klen : Nat) (es : List Entry) : Nat → Res (Option Nat)
  | 0 => .ok none
  | i + 1 =>
    match es[i]? with
    | none => .ub
    | some e =>
      if 0 < homingCmp name klen e then .ok none
      else if nameMatches name e then .ok (some i)
      else scanBwd name klen es i

/-- `tree_key_search`: src/libgit2/tree.c:152-217 -/
def treeKeySearch (es : List Entry) (name : Bytes) : Res Nat :=
  let klen := name.length % 65536
  match Sort.bsearch (homingCmp name klen) es with
  | .err e => .err e
  | .ub => .ub
  | .ok (false, _) => .err ENOTFOUND
  | .ok (true, homing) =>
    match scanFwd name klen es (es.length + 1) homing with
    | .err e => .err e
    | .ub => .ub
    | .ok (some i) => .ok i
    | .ok none => match scanBwd name klen es homing with
      | .err e => .err e
      | .ub => .ub
      | .ok (some i) => .ok i
      | .ok none => .err ENOTFOUND

/-- `git_tree_entry_byname`: src/libgit2/tree.c:294-314 -/
def entryByname (es : List Entry) (name : Bytes) : Res (Option Entry) :=
  match treeKeySearch es name with
  | .ok i => match es[i]? with
    | none => .ub
    | some e => .ok (some e)
  | .err _ => .ok none
  | .ub => .ub

end Verif.Tree
