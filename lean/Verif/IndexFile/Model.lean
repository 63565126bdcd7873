import Verif.BE
import Verif.Varint.Model
/-! # Model of the index file codec: `src/libgit2/index.c`

SHA-1 repositories (checksum and object ids of 20 bytes). The file is read into a `git_str`, which keeps a NUL byte after the
contents (`git_futils_readbuffer_fd`, src/util/futils.c:148-183), so the byte at offset `buffer_size` may be read and is NUL: a buffer
`b` below stands for the memory `b ++ [0]`. Reads beyond that are undefined.
The three extensions are kept as raw bytes; whether their own parser accepts them is a parameter. -/
namespace Verif.IndexFile

/-- `git_index_entry`: include/git2/index.h:58-75 (the fields have these widths there) -/
structure Entry where
  ctimeSec : UInt32
  ctimeNsec : UInt32
  mtimeSec : UInt32
  mtimeNsec : UInt32
  dev : UInt32
  ino : UInt32
  mode : UInt32
  uid : UInt32
  gid : UInt32
  fileSize : UInt32
  id : Bytes
  flags : UInt16
  flagsExt : UInt16
  path : Bytes
  deriving DecidableEq, Repr

/-- the parameters: path validity, the hash function, and the parsers of the extensions [functions used by src/libgit2/index.c:2502-2830] -/
structure Env where
  pathValid : Bytes → Bool
  hash : Bytes → Bytes
  extOk : Bytes → Bytes → Bool

/-- a raw extension: signature and contents [src/libgit2/index.c:56-59] -/
structure Ext where
  sig : Bytes
  data : Bytes
  deriving DecidableEq, Repr

/-- `GIT_INDEX_ENTRY_EXTENDED`: include/git2/index.h:96 -/
def isExt (flags : UInt16) : Bool := flags &&& 0x4000 ≠ 0

/-- `index_entry_path_offset`: src/libgit2/index.c:2441-2459; the offsets of `path` in the structures of :62-91 -/
def pathOffset (flags : UInt16) : Nat := if isExt flags then 64 else 62

/-- `index_entry_size`: src/libgit2/index.c:2475-2500 (`size_t` of 64 bits; 0 on overflow) -/
def entrySize (pathLen varintLen : Nat) (flags : UInt16) : Nat :=
  let offset := pathOffset flags
  if varintLen ≠ 0 then
    if offset + pathLen + 1 + varintLen < 2 ^ 64 then offset + pathLen + 1 + varintLen else 0
  else
    if offset + pathLen + 8 < 2 ^ 64 then (offset + pathLen + 8) / 8 * 8 else 0

/-- `strlen` [used at src/libgit2/index.c:2615, 2621] -/
def cstrlen (m : Bytes) : Res Nat := if 0 ∈ m then .ok (m.takeWhile (· ≠ 0)).length else .ub

/-- `memchr(p, 0, n)`: `none` when the first `n` bytes hold no NUL; it may not read past the memory [used at src/libgit2/index.c:2601] -/
def memchr0 (m : Bytes) (n : Nat) : Res (Option Nat) :=
  if 0 ∈ m.take n then .ok (some (m.takeWhile (· ≠ 0)).length) else if n ≤ m.length then .ok none else .ub

/-! ## Reading -/

/-- the fixed part of `read_entry`: src/libgit2/index.c:2526-2590. The structure copied has 64 bytes (63 and padding). -/
def readFixed (b : Bytes) : Res Entry := do
  let _ ← slice (b ++ [0]) 0 64
  let ctimeSec ← rd32 b 0
  let ctimeNsec ← rd32 b 4
  let mtimeSec ← rd32 b 8
  let mtimeNsec ← rd32 b 12
  let dev ← rd32 b 16
  let ino ← rd32 b 20
  let mode ← rd32 b 24
  let uid ← rd32 b 28
  let gid ← rd32 b 32
  let fileSize ← rd32 b 36
  let id ← slice b 40 20
  let flags ← rd16 b 60
  let flagsExt ← if isExt flags then rd16 (b ++ [0]) 62 else .ok 0
  .ok { ctimeSec, ctimeNsec, mtimeSec, mtimeNsec, dev, ino, mode, uid, gid, fileSize, id, flags, flagsExt, path := [] }

/-- the length of an uncompressed path: src/libgit2/index.c:2594-2606 -/
def plainLength (flags : UInt16) (bufferSize : Nat) (m : Bytes) : Res Nat :=
  if (flags &&& 0xfff).toNat = 0xfff then
    match memchr0 m bufferSize with
    | .ok none => .err (-1)
    | .ok (some n) => .ok n
    | .err e => .err e
    | .ub => .ub
  else .ok (flags &&& 0xfff).toNat

/-- the uncompressed path of `read_entry`: src/libgit2/index.c:2593-2609; the path is the C string at `path_ptr` (it is measured again by
`index_entry_create`, :928), the size of the entry comes from the flags. -/
def readPathPlain (flags : UInt16) (bufferSize : Nat) (m : Bytes) : Res (Bytes × Nat) := do
  let pathLength ← plainLength flags bufferSize m
  let n ← cstrlen m
  .ok (m.take n, entrySize pathLength 0 flags)

/-- the compressed path of `read_entry`: src/libgit2/index.c:2611-2638, `GIT_PATH_MAX`: include/git2/common.h:108 -/
def readPathComp (flags : UInt16) (m last : Bytes) : Res (Bytes × Nat) := do
  let (strip, varintLen) ← Varint.decode m
  if last.length < strip.toNat then .err (-1)
  else do
    let suffixLen ← cstrlen (m.drop varintLen)
    let prefixLen := last.length - strip.toNat
    if 4096 < prefixLen + suffixLen + 1 then .err (-1)
    else .ok (last.take prefixLen ++ (m.drop varintLen).take suffixLen, entrySize suffixLen varintLen flags)

/-- the two ways to read the path: src/libgit2/index.c:2593, :2610 -/
def readPath (version : Nat) (flags : UInt16) (bufferSize : Nat) (m last : Bytes) : Res (Bytes × Nat) :=
  if 4 ≤ version then readPathComp flags m last else readPathPlain flags bufferSize m

/-- the end of `read_entry`: src/libgit2/index.c:2640-2655, and `index_entry_create`'s path check :939-944 -/
def finishEntry (env : Env) (bufferSize : Nat) (e : Entry) (r : Bytes × Nat) : Res (Entry × Nat) :=
  if r.2 = 0 then .err (-1)
  else if bufferSize < 20 + r.2 then .err (-1)
  else if ¬ env.pathValid r.1 then .err (-1)
  else .ok ({ e with path := r.1 }, r.2)

/-- `read_entry`: src/libgit2/index.c:2502-2655. Returns the entry and its size. -/
def readEntry (env : Env) (version : Nat) (b last : Bytes) : Res (Entry × Nat) :=
  if b.length < 20 + 62 then .err (-1)
  else do
    let e ← readFixed b
    let r ← readPath version e.flags b.length ((b ++ [0]).drop (pathOffset e.flags)) last
    finishEntry env b.length e r

/-- the loop over the entries of `parse_index`: src/libgit2/index.c:2762-2791 -/
def readEntries (env : Env) (version : Nat) : Nat → Bytes → Bytes → Res (List Entry × Bytes)
  | 0, b, _ => .ok ([], b)
  | n + 1, b, last =>
    if b.length ≤ 20 then .err (-1)
    else do
      let (e, size) ← readEntry env version b last
      if b.length ≤ size then .err (-1)
      else do
        let (es, b) ← readEntries env version n (b.drop size) e.path
        .ok (e :: es, b)

/-- `read_extension`: src/libgit2/index.c:2674-2717 -/
def readExtension (env : Env) (b : Bytes) : Res (Ext × Nat) := do
  let sig ← slice (b ++ [0]) 0 4
  let size ← rd32 (b ++ [0]) 4
  let total := size.toNat + 8
  if b.length < total ∨ b.length - total < 20 then .err (-1)
  else
    let data := (b.drop 8).take size.toNat
    if ¬ (c!"A" ≤ sig.headD 0 ∧ sig.headD 0 ≤ c!"Z") then .err (-1)
    else if (sig = b!"TREE" ∨ sig = b!"REUC" ∨ sig = b!"NAME") ∧ ¬ env.extOk sig data then .err (-1)
    else .ok (⟨sig, data⟩, total)

/-- the loop over the extensions: src/libgit2/index.c:2801-2809 -/
def readExtensions (env : Env) : Nat → Bytes → Res (List Ext × Bytes)
  | 0, _ => .ub
  | fuel + 1, b =>
    if b.length ≤ 20 then .ok ([], b)
    else do
      let (x, size) ← readExtension env b
      if b.length ≤ size then .err (-1)
      else do
        let (xs, b) ← readExtensions env fuel (b.drop size)
        .ok (x :: xs, b)

/-- what is read: `index->version`, the entries, the extensions [src/libgit2/index.h:29-62] -/
structure Parsed where
  version : Nat
  entries : List Entry
  exts : List Ext
  deriving DecidableEq, Repr

/-- `parse_index` with `read_header`: src/libgit2/index.c:2719-2841, :2658-2673. (The vector is sorted only when the index ignores case.) -/
def parse (env : Env) (b : Bytes) : Res Parsed :=
  if b.length < 12 + 20 then .err (-1)
  else do
    let sig ← rd32 b 0
    let version ← rd32 b 4
    let count ← rd32 b 8
    if sig.toNat ≠ 0x44495243 then .err (-1)
    else if version.toNat < 2 ∨ 4 < version.toNat then .err (-1)
    else do
      let (es, b1) ← readEntries env version.toNat count.toNat (b.drop 12) []
      let (xs, b2) ← readExtensions env (b1.length + 1) b1
      if b2.length ≠ 20 then .err (-1)
      else if b2 ≠ List.replicate 20 0 ∧ b2 ≠ env.hash (b.take (b.length - 20)) then .err (-1)
      else .ok ⟨version.toNat, es, xs⟩

/-! ## Writing -/

/-- the length of the common start of two C strings: src/libgit2/index.c:2888-2895 -/
def sameLen : Bytes → Bytes → Nat
  | a :: as, b :: bs => if a = b ∧ a ≠ 0 then sameLen as bs + 1 else 0
  | _, _ => 0

/-- the structures filled in: src/libgit2/index.c:2917-2999 -/
def fixedPart (e : Entry) : Bytes :=
  be32 e.ctimeSec ++ be32 e.ctimeNsec ++ be32 e.mtimeSec ++ be32 e.mtimeNsec ++ be32 e.dev ++ be32 e.ino ++ be32 e.mode ++
  be32 e.uid ++ be32 e.gid ++ be32 e.fileSize ++ e.id ++ be16 e.flags ++
  (if isExt e.flags then be16 (e.flagsExt &&& 0x6000) else [])

/-- `write_disk_entry`: src/libgit2/index.c:2858-3021. `last` is `none` for versions 2 and 3. The size is taken first; the bytes not
written by the copies are zero (`memset`). -/
def writeEntry (e : Entry) (last : Option Bytes) : Res Bytes :=
  match last with
  | some last => do
    let same := sameLen e.path last
    let pathLen := e.path.length - same
    let strip := UInt64.ofNat (last.length - same)
    let (_, n) ← Varint.encode none strip
    let size := entrySize pathLen n e.flags
    if size = 0 then .err (-1)
    else do
      let (v, k) ← Varint.encode (some (size - pathOffset e.flags)) strip
      if size - pathOffset e.flags - k ≠ pathLen + 1 then .err (-1)
      else .ok (fixedPart e ++ v ++ e.path.drop same ++ [0])
  | none =>
    let size := entrySize e.path.length 0 e.flags
    if size = 0 then .err (-1)
    else if ¬ e.path.length < size - pathOffset e.flags then .err (-1)
    else .ok (fixedPart e ++ e.path ++ List.replicate (size - pathOffset e.flags - e.path.length) 0)

/-- `write_entries`: src/libgit2/index.c:3023-3056 -/
def writeEntries (comp : Bool) : List Entry → Bytes → Res Bytes
  | [], _ => .ok []
  | e :: es, last => do
    let a ← writeEntry e (if comp then some last else none)
    let b ← writeEntries comp es e.path
    .ok (a ++ b)

/-- `is_index_extended`, one entry: src/libgit2/index.c:2848-2852 -/
def adjust (e : Entry) : Entry :=
  if e.flagsExt &&& 0x6000 ≠ 0 then { e with flags := e.flags ||| 0x4000 } else { e with flags := e.flags &&& 0xbfff }

/-- `write_extension`: src/libgit2/index.c:3058-3068 -/
def writeExt (x : Ext) : Bytes := x.sig ++ be32 (UInt32.ofNat x.data.length) ++ x.data

/-- `write_index`: src/libgit2/index.c:3206-3263. For versions up to 3 the flags of the entries are adjusted first and the version follows from
them; version 4 writes the flags as they are. -/
def write (env : Env) (version : Nat) (es : List Entry) (xs : List Ext) : Res Bytes := do
  let es' := if version ≤ 3 then es.map adjust else es
  let ver := if version ≤ 3 then (if es.any (fun e => e.flagsExt &&& 0x6000 ≠ 0) then 3 else 2) else version
  let body ← writeEntries (4 ≤ version) es' []
  let content := be32 0x44495243 ++ be32 (UInt32.ofNat ver) ++ be32 (UInt32.ofNat es.length) ++ body ++ (xs.map writeExt).flatten
  .ok (content ++ env.hash content)

end Verif.IndexFile
