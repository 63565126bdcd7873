import Verif.IndexExt.Spec
import Verif.Strtol.Model
import Verif.Tree.Model
import Verif.Dec
import Verif.IndexFile.Model
/-! # Model of the readers and writers of the index extensions: `src/libgit2/index.c` and `src/libgit2/tree-cache.c`

A reader gets the memory from its pointer to the end of the mapped file, `buf`, and the number of bytes that are left of the extension, `size`
(the end pointer minus the pointer in `tree-cache.c`). Reading outside `buf` is `ub`, and so is a `size_t` that would wrap around. SHA-1 only.
Allocation failure is not modelled. -/
namespace Verif.IndexExt
open Spec (Reuc Name)
open IndexTree (Cache)

/-- `*p` [used at src/libgit2/index.c:2341, src/libgit2/tree-cache.c:97, :106] -/
def peek (buf : Bytes) : Res UInt8 :=
  match buf with
  | [] => .ub
  | c :: _ => .ok c

/-- `p += len; size -= len` [used at src/libgit2/index.c:2333-2334, :2353-2354, :2369-2370, :2409-2410, src/libgit2/tree-cache.c:117] -/
def advance (buf : Bytes) (size len : Nat) : Res (Bytes × Nat) :=
  if size < len ∨ buf.length < len then .ub else .ok (buf.drop len, size - len)

/-- `p_strnlen`: src/util/posix.c:291-302, or the C library's -/
def strnlen (buf : Bytes) (size : Nat) : Res Nat :=
  if 0 ∈ buf.take size then .ok (buf.takeWhile (· ≠ 0)).length
  else if size ≤ buf.length then .ok size else .ub

/-- copying a string up to its NUL: `strlen` and `memcpy` in src/libgit2/index.c:1014-1034 and src/libgit2/tree-cache.c:228-250 -/
def cstr (buf : Bytes) : Res Bytes :=
  if 0 ∈ buf then .ok (buf.takeWhile (· ≠ 0)) else .ub

/-- `n` bytes at the pointer: `memcpy` [used at src/libgit2/index.c:2366, :2406, src/libgit2/tree-cache.c:116] -/
def bytesAt (buf : Bytes) (n : Nat) : Res Bytes :=
  if buf.length < n then .ub else .ok (buf.take n)

/-- `git__strntol64` with its `endptr`: the number, and the number of bytes from the pointer to `endptr` [src/util/util.c:34-136] -/
def number64 (buf : Bytes) (size base : Nat) : Res (Int × Nat) :=
  if buf.length < size then .ub
  else
    match Strtol.strntol64 (buf.take size) base with
    | .ok (v, rest) => .ok (v, size - rest.length)
    | .err e => .err e
    | .ub => .ub

/-- `git__strntol32` with its `endptr` [src/util/util.c:138-160] -/
def number32 (buf : Bytes) (size base : Nat) : Res (Int × Nat) :=
  if buf.length < size then .ub
  else
    match Strtol.strntol32 (buf.take size) base with
    | .ok (v, rest) => .ok (v, size - rest.length)
    | .err e => .err e
    | .ub => .ub

/-! ## `REUC` -/

/-- one mode: src/libgit2/index.c:2337-2355 -/
def readMode (buf : Bytes) (size : Nat) : Res (Nat × Bytes × Nat) := do
  let (tmp, len) ← number64 buf size 8
  if len = 0 then .err (-1)
  else do
    let c ← peek (buf.drop len)
    if c ≠ 0 then .err (-1)
    else if tmp < 0 ∨ 0xffffffff < tmp then .err (-1)
    else if size ≤ len + 1 then .err (-1)
    else do
      let (buf, size) ← advance buf size (len + 1)
      .ok (tmp.toNat, buf, size)

/-- one object id: src/libgit2/index.c:2359-2371; an id that is not read stays zero from `git__calloc`, :1025 -/
def readOid (mode : Nat) (buf : Bytes) (size : Nat) : Res (Bytes × Bytes × Nat) :=
  if mode = 0 then .ok (List.replicate 20 0, buf, size)
  else if size < 20 then .err (-1)
  else do
    let oid ← bytesAt buf 20
    let (buf, size) ← advance buf size 20
    .ok (oid, buf, size)

/-- one entry: src/libgit2/index.c:2323-2372 -/
def readReucOne (buf : Bytes) (size : Nat) : Res (Reuc × Bytes × Nat) := do
  let len ← strnlen buf size
  if size ≤ len + 1 then .err (-1)
  else do
    let path ← cstr buf
    let (buf, size) ← advance buf size (len + 1)
    let (m0, buf, size) ← readMode buf size
    let (m1, buf, size) ← readMode buf size
    let (m2, buf, size) ← readMode buf size
    let (o0, buf, size) ← readOid m0 buf size
    let (o1, buf, size) ← readOid m1 buf size
    let (o2, buf, size) ← readOid m2 buf size
    .ok (⟨path, m0, m1, m2, o0, o1, o2⟩, buf, size)

/-- the loop: src/libgit2/index.c:2323-2377. Running out of fuel is `ub`. -/
def reucLoop : Nat → Bytes → Nat → Res (List Reuc)
  | 0, _, _ => .ub
  | fuel + 1, buf, size =>
    if size = 0 then .ok []
    else do
      let (e, buf, size) ← readReucOne buf size
      let es ← reucLoop fuel buf size
      .ok (e :: es)

/-- `read_reuc`: src/libgit2/index.c:2310-2383 -/
def readReuc (buf : Bytes) (size : Nat) : Res (List Reuc) := reucLoop (size + 1) buf size

/-- the id of a stage: src/libgit2/index.c:3140-3143 -/
def writeOid (mode : Nat) (oid : Bytes) : Bytes := if mode ≠ 0 then oid else []

/-- `create_reuc_extension_data`: src/libgit2/index.c:3125-3146 -/
def writeReucOne (e : Reuc) : Bytes :=
  (e.path ++ [0]) ++ (Tree.octal e.mode0 ++ [0]) ++ (Tree.octal e.mode1 ++ [0]) ++ (Tree.octal e.mode2 ++ [0]) ++
    (writeOid e.mode0 e.oid0 ++ writeOid e.mode1 e.oid1 ++ writeOid e.mode2 e.oid2)

/-- the contents written by `write_reuc_extension`: src/libgit2/index.c:3148-3172 -/
def writeReuc (es : List Reuc) : Bytes := es.flatMap writeReucOne

/-! ## `NAME` -/

/-- the macro `read_conflict_name`: src/libgit2/index.c:2395-2410 -/
def readName (buf : Bytes) (size : Nat) : Res (Option Bytes × Bytes × Nat) := do
  let n ← strnlen buf size
  let len := n + 1
  if size < len then .err (-1)
  else do
    let name ← if len = 1 then .ok none else do
      let s ← bytesAt buf len
      let s ← cstr s
      .ok (some s)
    let (buf, size) ← advance buf size len
    .ok (name, buf, size)

/-- one conflict: src/libgit2/index.c:2412-2421 -/
def readNamesOne (buf : Bytes) (size : Nat) : Res (Name × Bytes × Nat) := do
  let (a, buf, size) ← readName buf size
  let (o, buf, size) ← readName buf size
  let (t, buf, size) ← readName buf size
  .ok (⟨a, o, t⟩, buf, size)

/-- the loop: src/libgit2/index.c:2412-2431. Running out of fuel is `ub`. -/
def namesLoop : Nat → Bytes → Nat → Res (List Name)
  | 0, _, _ => .ub
  | fuel + 1, buf, size =>
    if size = 0 then .ok []
    else do
      let (n, buf, size) ← readNamesOne buf size
      let ns ← namesLoop fuel buf size
      .ok (n :: ns)

/-- `read_conflict_names`: src/libgit2/index.c:2386-2439 -/
def readNames (buf : Bytes) (size : Nat) : Res (List Name) := namesLoop (size + 1) buf size

/-- one side: src/libgit2/index.c:3074-3077, :3082-3085, :3090-3093 -/
def writeName (n : Option Bytes) : Bytes :=
  match n with
  | none => [0]
  | some s => s ++ [0]

/-- `create_name_extension_data`: src/libgit2/index.c:3070-3097 -/
def writeNamesOne (n : Name) : Bytes := writeName n.ancestor ++ writeName n.ours ++ writeName n.theirs

/-- the contents written by `write_name_extension`: src/libgit2/index.c:3099-3123 -/
def writeNames (ns : List Name) : Bytes := ns.flatMap writeNamesOne

/-! ## `TREE` -/

/-- `memchr(p, 0, n)`: the number of bytes before the NUL [used at src/libgit2/tree-cache.c:82] -/
def memchr0 (buf : Bytes) (n : Nat) : Res (Option Nat) :=
  if 0 ∈ buf.take n then .ok (some (buf.takeWhile (· ≠ 0)).length) else if n ≤ buf.length then .ok none else .ub

/-- the first line of a node: name, entry count, number of children: src/libgit2/tree-cache.c:80-107 -/
def readHead (buf : Bytes) (size : Nat) : Res (Bytes × Int × Int × Bytes × Nat) := do
  let pos ← memchr0 buf size
  match pos with
  | none => .err (-1)
  | some len =>
    if size ≤ len + 1 then .err (-1)
    else do
      let name ← cstr buf
      let (buf, size) ← advance buf size (len + 1)
      let (count, len) ← number32 buf size 10
      let (buf, size) ← advance buf size len
      let c ← peek buf
      if c ≠ c!" " ∨ size ≤ 1 then .err (-1)
      else do
        let (buf, size) ← advance buf size 1
        let (kids, len) ← number32 buf size 10
        if kids < 0 then .err (-1)
        else do
          let (buf, size) ← advance buf size len
          let c ← peek buf
          if c ≠ c!"\n" ∨ size < 1 then .err (-1)
          else do
            let (buf, size) ← advance buf size 1
            .ok (name, count, kids, buf, size)

/-- the id of a node: src/libgit2/tree-cache.c:110-118; without one it stays zero from :243 -/
def readTreeOid (count : Int) (buf : Bytes) (size : Nat) : Res (Bytes × Bytes × Nat) :=
  if 0 ≤ count then
    if size < 20 then .err (-1)
    else do
      let oid ← bytesAt buf 20
      let (buf, size) ← advance buf size 20
      .ok (oid, buf, size)
  else .ok (List.replicate 20 0, buf, size)

mutual
/-- `read_tree_internal`: src/libgit2/tree-cache.c:68-144. The fuel bounds the depth and the number of nodes; running out of it is `ub`. -/
def readNode : Nat → Bytes → Nat → Res (Cache × Bytes × Nat)
  | 0, _, _ => .ub
  | fuel + 1, buf, size => do
    let (name, count, kids, buf, size) ← readHead buf size
    let (oid, buf, size) ← readTreeOid count buf size
    let (cs, buf, size) ← readKids fuel kids.toNat buf size
    .ok (.mk name count oid cs, buf, size)
/-- the loop over the children: src/libgit2/tree-cache.c:121-135 -/
def readKids : Nat → Nat → Bytes → Nat → Res (List Cache × Bytes × Nat)
  | 0, _, _, _ => .ub
  | _ + 1, 0, buf, size => .ok ([], buf, size)
  | fuel + 1, n + 1, buf, size => do
    let (c, buf, size) ← readNode fuel buf size
    let (cs, buf, size) ← readKids fuel n buf size
    .ok (c :: cs, buf, size)
end

/-- `git_tree_cache_read`: src/libgit2/tree-cache.c:146-165 -/
def readTree (buf : Bytes) (size : Nat) : Res Cache := do
  let (c, _, left) ← readNode (2 * size + 1) buf size
  if 0 < left then .err (-1) else .ok c

mutual
/-- `write_tree`: src/libgit2/tree-cache.c:253-264 -/
def writeTree : Cache → Bytes
  | .mk name count oid cs =>
    (name ++ [0] ++ decimalInt count ++ [c!" "] ++ decimal cs.length ++ [c!"\n"]) ++ (if count ≠ -1 then oid else []) ++ writeKids cs
/-- [src/libgit2/tree-cache.c:262-263] -/
def writeKids : List Cache → Bytes
  | [] => []
  | c :: cs => writeTree c ++ writeKids cs
end

/-! ## In the index file -/

/-- what the extensions are read into: `tree`, `names` and `reuc` of `git_index` [src/libgit2/index.h:29-62] -/
structure Side where
  tree : Option Cache
  names : List Name
  reuc : List Reuc

/-- `read_extension`, the contents of an extension, `after` being what follows it in memory: src/libgit2/index.c:2692-2716. The vectors are
appended to; a second tree replaces the first. -/
def readExtData (after : Bytes) (s : Side) (x : IndexFile.Ext) : Res Side :=
  if x.sig = b!"TREE" then do
    let c ← readTree (x.data ++ after) x.data.length
    .ok { s with tree := some c }
  else if x.sig = b!"REUC" then do
    let es ← readReuc (x.data ++ after) x.data.length
    .ok { s with reuc := s.reuc ++ es }
  else if x.sig = b!"NAME" then do
    let ns ← readNames (x.data ++ after) x.data.length
    .ok { s with names := s.names ++ ns }
  else .ok s

/-- all extensions: src/libgit2/index.c:2801-2809 -/
def readExtsData (after : Bytes) : Side → List IndexFile.Ext → Res Side
  | s, [] => .ok s
  | s, x :: xs => do
    let s ← readExtData after s x
    readExtsData after s xs

/-- whether `read_extension` accepts the contents (what follows them is given as one byte: `C89_context`) [src/libgit2/index.c:2692-2716] -/
def extOk (sig data : Bytes) : Bool :=
  match readExtData [0] ⟨none, [], []⟩ ⟨sig, data⟩ with
  | .ok _ => true
  | _ => false

/-- the extensions written: src/libgit2/index.c:3234-3245, with the signatures of :54-57 -/
def sideExts (s : Side) : List IndexFile.Ext :=
  (match s.tree with | some c => [⟨b!"TREE", writeTree c⟩] | none => []) ++
  (if 0 < s.names.length then [⟨b!"NAME", writeNames s.names⟩] else []) ++
  (if 0 < s.reuc.length then [⟨b!"REUC", writeReuc s.reuc⟩] else [])

end Verif.IndexExt
