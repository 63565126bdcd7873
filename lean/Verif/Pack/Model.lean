import Verif.Delta.Model
/-! # Pack entries: src/libgit2/pack.c

The header codec, the base of a delta, the chain of bases and the unpacking of an object through the delta base cache.

* 64-bit `long`, `size_t` and `off64_t`.
* A pack is its bytes, cut by memory windows: opening a window at an offset gives the bytes from there on, `left off` of them
  (src/libgit2/mwindow.c:386-446). Failures to lock, to open the file and to map memory are not modelled.
* Inflating is a parameter: the whole stream that starts at the given bytes, if there is one.
* The index of the pack is a parameter: the offset recorded for an id. While indexing (`has_cache`) it is the indexer's own map.
* Other threads may add to and evict from the base cache at any moment: the cache seen by the `k`-th look-up of an unpacking
  is any value `caches k`.  -/
namespace Verif.Pack

/-- `GIT_EBUFS`: include/git2/errors.h:26 -/
def EBUFS : Int := -6
/-- `git_object_t`: include/git2/types.h:75-83; the delta types src/libgit2/pack.h:31-34 -/
def COMMIT : Nat := 1
/-- [include/git2/types.h:77] -/
def TREE : Nat := 2
/-- [include/git2/types.h:78] -/
def BLOB : Nat := 3
/-- [include/git2/types.h:79] -/
def TAG : Nat := 4
/-- [src/libgit2/pack.h:37] -/
def OFS_DELTA : Nat := 6
/-- [src/libgit2/pack.h:38] -/
def REF_DELTA : Nat := 7
/-- SHA-1: `p->oid_size` [include/git2/oid.h:43] -/
def OIDSZ : Nat := 20

/-- the loop of `git_packfile__object_header`: src/libgit2/pack.c:402-407 -/
def headerLoop (c size : Nat) : List Nat :=
  if size ≠ 0 then (c ||| 0x80) :: headerLoop (size &&& 0x7f) (size >>> 7) else [c]
termination_by size
decreasing_by rename_i h; rw [Nat.shiftRight_eq_div_pow]; omega

/-- `git_packfile__object_header`: src/libgit2/pack.c:388-410; the bytes stored at `hdr` -/
def objectHeader (size type : Nat) : Res Bytes :=
  if ¬ (COMMIT ≤ type ∧ type ≤ REF_DELTA) then .err (-1)
  else .ok ((headerLoop (((type <<< 4) ||| (size &&& 15)) % 256) (size >>> 4)).map UInt8.ofNat)

/-- the loop of `packfile_unpack_header1`: src/libgit2/pack.c:428-443. `buf` is what has not been read, `used` what has -/
def unpackLoop (c size shift used : Nat) (buf : Bytes) : Res (Nat × Nat) :=
  if c &&& 0x80 = 0 then .ok (size, used)
  else match buf with
    | [] => .err EBUFS
    | b :: buf' =>
      if 64 ≤ shift then .err (-1)
      else unpackLoop b.toNat ((size + ((b.toNat &&& 0x7f) <<< shift) % 2 ^ 64) % 2 ^ 64) (shift + 7) (used + 1) buf'

/-- `packfile_unpack_header1`: src/libgit2/pack.c:413-448: type, size, bytes used. The first byte is read without looking at
`len`. -/
def unpackHeader1 (buf : Bytes) : Res (Nat × Nat × Nat) :=
  match buf with
  | [] => .ub
  | b :: buf' => do
    let type := (b.toNat >>> 4) &&& 7
    let (size, used) ← unpackLoop b.toNat (b.toNat &&& 15) 4 1 buf'
    pure (type, size, used)

/-- the loop of the offset branch of `get_delta_base`: src/libgit2/pack.c:991-999 -/
def ofsLoop (x : UInt64) (c : UInt8) (used : Nat) (buf : Bytes) : Res (UInt64 × Nat) :=
  if c &&& 128 = 0 then .ok (x, used)
  else match buf with
    | [] => .err EBUFS
    | c' :: buf' =>
      let x := x + 1
      if x = 0 ∨ x &&& ((~~~ (0 : UInt64)) <<< 57) ≠ 0 then .err (-1)
      else ofsLoop ((x <<< 7) + (c' &&& 127).toUInt64) c' (used + 1) buf'

/-- the offset branch of `get_delta_base`: src/libgit2/pack.c:987-1003: the base offset and the bytes used -/
def ofsBase (buf : Bytes) (objOff : Nat) : Res (Nat × Nat) :=
  match buf with
  | [] => .ub
  | c :: buf' => do
    let (x, used) ← ofsLoop (c &&& 127).toUInt64 c 1 buf'
    if x = 0 ∨ objOff ≤ x.toNat then .err (-1) else pure (objOff - x.toNat, used)

/-- what the functions below read [src/libgit2/pack.h:108-137] -/
structure Pack where
  /-- the bytes of the file (`p->mwf`) -/
  file : Bytes
  /-- how many bytes a window opened at an offset makes readable -/
  left : Nat → Nat
  /-- `pack_entry_find_offset` for a whole id -/
  find : Bytes → Option Nat
  /-- the zlib stream that starts here -/
  inflate : Bytes → Option Bytes
  /-- what a base without an offset means: -1, or `GIT_PASSTHROUGH` while the pack is being indexed (`has_cache`), src/libgit2/pack.c:1008-1030 -/
  absent : Int := -1

/-- the bytes of a window: `git_mwindow_open`, src/libgit2/mwindow.c:386-446 -/
def Pack.window (p : Pack) (off : Nat) : Bytes := (p.file.drop off).take (p.left off)

/-- `pack_window_open`: src/libgit2/pack.c:338-377; `none` is `NULL`. The subtraction is signed. -/
def Pack.windowOpen (p : Pack) (off : Nat) : Option Bytes :=
  if (off : Int) > (p.file.length : Int) - (OIDSZ : Int) then none else some (p.window off)

/-- `git_packfile_unpack_header`: src/libgit2/pack.c:450-496: type, size, position after the header.
Outside the file the window would be empty or start beyond its end: the first byte is out of bounds. -/
def unpackHeader (p : Pack) (curpos : Nat) : Res (Nat × Nat × Nat) :=
  match unpackHeader1 (p.window curpos) with
  | .ok (t, s, used) => .ok (t, s, curpos + used)
  | .err e => if e = EBUFS then .err e else .err (-1)
  | .ub => .ub

/-- `get_delta_base`: src/libgit2/pack.c:960-1039: base offset and position after it -/
def getDeltaBase (p : Pack) (curpos type objOff : Nat) : Res (Nat × Nat) :=
  match p.windowOpen curpos with
  | none => .err EBUFS
  | some w =>
    if type = OFS_DELTA then do
      let (base, used) ← ofsBase w objOff
      if base = 0 then .err (-1) else pure (base, curpos + used)
    else if type = REF_DELTA then
      if w.length < OIDSZ then .ub
      else match p.find (w.take OIDSZ) with
        | none => .err p.absent
        | some base => if base = 0 then .err (-1) else .ok (base, curpos + OIDSZ)
    else .err (-1)

/-- type and contents: `git_rawobj` [src/libgit2/odb.h:34-38] -/
abbrev Raw := Nat × Bytes

/-- `packfile_unpack_compressed`: src/libgit2/pack.c:886-954. The loop feeds the windows to zlib one after the other; its
outcome is taken to be that of the whole stream at once. -/
def unpackCompressed (p : Pack) (pos size : Nat) : Res Bytes :=
  if size + 1 ≥ 2 ^ 64 then .err (-1)
  else match p.windowOpen pos with
    | none => .err (-1)
    | some _ => match p.inflate (p.file.drop pos) with
      | none => .err (-1)
      | some d => if d.length = size then .ok d else .err (-1)

/-- `struct pack_chain_elem`: src/libgit2/pack.h:84-89 -/
structure Elem where
  baseKey : Nat
  offset : Nat
  size : Nat
  type : Nat
  deriving DecidableEq, Repr

/-- the cache as seen by one look-up: `cache_get`, src/libgit2/pack.c:107-122 -/
abbrev Cache := Nat → Option Raw

/-- `type == GIT_PACKFILE_OFS_DELTA || type == GIT_PACKFILE_REF_DELTA` [src/libgit2/pack.c:535, 556, 638] -/
def isDelta (type : Nat) : Bool := type = OFS_DELTA || type = REF_DELTA

/-- `pack_dependency_chain`: src/libgit2/pack.c:583-663. The outcome is the stack, top (the deepest base) first, and the cached
base; `none` when the rounds are used up (the C loop has no bound). The switch from the small stack to the heap is not
observable. -/
def chain (p : Pack) (caches : Nat → Cache) : Nat → Nat → Nat → List Elem → Option (Res (List Elem × Option Raw))
  | 0, _, _, _ => none
  | fuel + 1, k, off, stack =>
    match caches k off with
    | some raw => some (.ok (stack, some raw))
    | none =>
      match unpackHeader p off with
      | .err e => some (.err e)
      | .ub => some .ub
      | .ok (type, size, curpos) =>
        if ¬ isDelta type then some (.ok (⟨off, curpos, size, type⟩ :: stack, none))
        else match getDeltaBase p curpos type off with
          | .err e => some (.err e)
          | .ub => some .ub
          | .ok (base, curpos') => chain p caches fuel (k + 1) base (⟨off, curpos', size, type⟩ :: stack)

/-- the loop applying the deltas of `git_packfile_unpack`: src/libgit2/pack.c:760-818. `key` is the offset of the current
object if it is not in the cache, and the list collects what `cache_add` (src/libgit2/pack.c:140-182) is offered. -/
def applyLoop (p : Pack) (baseType : Nat) : List Elem → Option Nat → Bytes → List (Nat × Raw) → Res (Bytes × List (Nat × Raw))
  | [], _, data, adds => .ok (data, adds)
  | e :: stack, key, data, adds => do
    let adds := match key with | some k => (k, (baseType, data)) :: adds | none => adds
    let delta ← unpackCompressed p e.offset e.size
    let out ← Delta.apply data delta
    applyLoop p baseType stack (some e.baseKey) out adds

/-- `git_packfile_unpack`: src/libgit2/pack.c:665-831: type, contents, and the entries offered to the cache -/
def unpack (p : Pack) (caches : Nat → Cache) (fuel off : Nat) : Option (Res (Raw × List (Nat × Raw))) :=
  match chain p caches fuel 0 off [] with
  | none => none
  | some (.err e) => some (.err e)
  | some .ub => some .ub
  | some (.ok (stack, some (t, d))) =>
    if t = COMMIT ∨ t = TREE ∨ t = BLOB ∨ t = TAG then
      if stack = [] then some (.ok ((t, d), []))
      else some ((applyLoop p t stack none d []) >>= fun (d, adds) => .ok ((t, d), adds))
    else some (.err (-1))
  | some (.ok ([], none)) => some .ub
  | some (.ok (e :: stack, none)) =>
    if e.type = COMMIT ∨ e.type = TREE ∨ e.type = BLOB ∨ e.type = TAG then
      some ((unpackCompressed p e.offset e.size) >>= fun d =>
        (applyLoop p e.type stack (some e.baseKey) d []) >>= fun (d, adds) => .ok ((e.type, d), adds))
    else some (.err (-1))

/-- the second loop of `git_packfile_resolve_header`: src/libgit2/pack.c:556-570 -/
def resolveLoop (p : Pack) : Nat → Nat → Option (Res Nat)
  | 0, _ => none
  | fuel + 1, off =>
    match unpackHeader p off with
    | .err e => some (.err e)
    | .ub => some .ub
    | .ok (type, _, curpos) =>
      if ¬ isDelta type then some (.ok type)
      else match getDeltaBase p curpos type off with
        | .err e => some (.err e)
        | .ub => some .ub
        | .ok (base, _) => resolveLoop p fuel base

/-- `git_delta_read_header_fromstream`: src/libgit2/delta.c:503-532, on the stream starting at `pos`: at most 16 bytes of it are
read into the buffer. When the stream is corrupt the read returns -1, which is added to the length: the header is then
looked for in uninitialised memory and beyond (simplified: a corrupt stream is taken to fail from its first byte on). When no
window can be opened (`git_packfile_stream_read`, src/libgit2/pack.c:847-879) the loop tries again for ever: `none`. -/
def readHeaderFromStream (p : Pack) (pos : Nat) : Option (Res (Nat × Nat)) :=
  match p.windowOpen pos with
  | none => none
  | some _ => match p.inflate (p.file.drop pos) with
    | none => some .ub
    | some d => some (Delta.readHeader (d.take 16))

/-- `git_packfile_resolve_header`: src/libgit2/pack.c:498-573: type and size without unpacking. -/
def resolveHeader (p : Pack) (fuel off : Nat) : Option (Res (Nat × Nat)) :=
  match unpackHeader p off with
  | .err e => some (.err e)
  | .ub => some .ub
  | .ok (type, size, curpos) =>
    if isDelta type then
      match getDeltaBase p curpos type off with
      | .err e => some (.err e)
      | .ub => some .ub
      | .ok (base, curpos') =>
        match readHeaderFromStream p curpos' with
        | none => none
        | some (.err e) => some (.err e)
        | some .ub => some .ub
        | some (.ok (_, resSize)) => (resolveLoop p fuel base).map fun r => r >>= fun t => .ok (t, resSize)
    else some (.ok (type, size))

end Verif.Pack
