import Verif.PackIdx.Model
import Verif.Sort.Model
/-! # Multi-pack-index files (src/libgit2/midx.c)

Ids have `osz` bytes (20, or 32). Files with fewer than 2^31 objects: the position found by the search is kept in an `int`. That the words of the
file are read at addresses which need not be multiples of four is not modelled, nor are failures to allocate. -/
namespace Verif.Midx
open PackIdx (ENOTFOUND Table fanLoop)

/-! ### reading -/

/-- the chunks that `git_midx_parse` tells apart: src/libgit2/midx.c:33-37, 176-181 -/
inductive Kind where
  | names | fanout | lookup | offsets | large | unknown
  deriving DecidableEq, Repr

/-- the `switch` on the chunk's id: src/libgit2/midx.c:233-263 -/
def kindOf (id : UInt32) : Kind :=
  if id = 0x504e414d then .names
  else if id = 0x4f494446 then .fanout
  else if id = 0x4f49444c then .lookup
  else if id = 0x4f4f4646 then .offsets
  else if id = 0x4c4f4646 then .large
  else .unknown

/-- `struct git_midx_chunk`: src/libgit2/midx.c:39-42 -/
structure Chunk where
  off : Nat := 0
  len : Nat := 0
  deriving DecidableEq, Repr

/-- the six local chunks [src/libgit2/midx.c:176-181] -/
abbrev Chunks := Kind → Chunk

/-- `last_chunk->length = n` [src/libgit2/midx.c:229-230, 265] -/
def setLen (cs : Chunks) (last : Option Kind) (n : Nat) : Chunks :=
  match last with
  | none => cs
  | some k => fun j => if j = k then { cs j with len := n } else cs j

/-- `chunk_....offset = last_chunk_offset` [src/libgit2/midx.c:235] -/
def setOff (cs : Chunks) (k : Kind) (n : Nat) : Chunks := fun j => if j = k then { cs j with off := n } else cs j

/-- the loop over the chunk headers: src/libgit2/midx.c:217-264; `n` of them are left, the next is at `pos` -/
def chunkLoop (file : Bytes) (trailer : Nat) : Nat → Nat → Nat → Option Kind → Chunks → Res (Nat × Option Kind × Chunks)
  | 0, _, lastOff, last, cs => .ok (lastOff, last, cs)
  | n + 1, pos, lastOff, last, cs =>
    rd32 file pos >>= fun id =>
    rd32 file (pos + 4) >>= fun h =>
    rd32 file (pos + 8) >>= fun l =>
    if h.toNat ≥ 2 ^ 31 - 1 then .err (-1)
    else
      let off := h.toNat * 2 ^ 32 + l.toNat
      if off < lastOff then .err (-1)
      else if off ≥ trailer then .err (-1)
      else chunkLoop file trailer n (pos + 12) off (some (kindOf id)) (setOff (setLen cs last (off - lastOff)) (kindOf id) off)

/-- `git_midx_file`: src/libgit2/midx.h:32-65; pointers into the mapping are offsets, and there is a table of large offsets if `numLarge` is not 0 -/
structure File where
  file : Bytes
  names : List Bytes
  fanout : Nat
  num : Nat
  lookup : Nat
  offsets : Nat
  large : Nat
  numLarge : Nat
  checksum : Bytes
  deriving DecidableEq, Repr

/-- `git__suffixcmp(name, ".idx") != 0` [src/util/util.c:272-279] -/
def suffixed (name suffix : Bytes) : Bool := name.length ≥ suffix.length && name.drop (name.length - suffix.length) == suffix

/-- `i && strcmp(git_vector_get(&idx->packfile_names, i - 1), packfile_name) >= 0` [src/libgit2/midx.c:75] -/
def notAfter (prev : Option Bytes) (name : Bytes) : Bool :=
  match prev with
  | none => false
  | some p => decide (bcmp p name ≥ 0)

/-- the loop of `midx_parse_packfile_names`: src/libgit2/midx.c:68-83; `n` names are left, which are in `rest`; `prev` is the last one -/
def nameLoop : Nat → Bytes → Option Bytes → Res (List Bytes)
  | 0, _, _ => .ok []
  | n + 1, rest, prev =>
    let name := rest.takeWhile fun c => c ≠ 0
    if name.length = 0 then .err (-1)
    else if name.length + 1 > rest.length then .err (-1)
    else if notAfter prev name then .err (-1)
    else if name.length ≤ 4 || !suffixed name b!".idx" then .err (-1)
    else if name.contains c!"/" || name.contains 92 then .err (-1)
    else nameLoop n (rest.drop (name.length + 1)) (some name) >>= fun r => .ok (name :: r)

/-- `midx_parse_packfile_names`: src/libgit2/midx.c:52-85 -/
def parseNames (file : Bytes) (packs : Nat) (c : Chunk) : Res (List Bytes) :=
  if c.off = 0 then .err (-1)
  else if c.len = 0 then .err (-1)
  else slice file c.off c.len >>= fun chunk => nameLoop packs chunk none

/-- `midx_parse_oid_fanout`: src/libgit2/midx.c:87-110 -/
def parseFanout (file : Bytes) (c : Chunk) : Res Nat :=
  if c.off = 0 then .err (-1)
  else if c.len = 0 then .err (-1)
  else if c.len ≠ 256 * 4 then .err (-1)
  else fanLoop file c.off 256 0

/-- `midx_parse_oid_lookup`: src/libgit2/midx.c:112-129, and `midx_parse_object_offsets` (:131-146), which differ in the size of an entry -/
def parseTable (size num : Nat) (c : Chunk) : Res Unit :=
  if c.off = 0 then .err (-1)
  else if c.len = 0 then .err (-1)
  else if c.len ≠ num * size then .err (-1)
  else .ok ()

/-- `midx_parse_object_large_offsets`: src/libgit2/midx.c:148-162: offset and number of the entries -/
def parseLarge (c : Chunk) : Res (Nat × Nat) :=
  if c.len = 0 then .ok (0, 0)
  else if c.len % 8 ≠ 0 then .err (-1)
  else .ok (c.off, c.len / 8)

/-- `git_midx_parse`: src/libgit2/midx.c:164-285 -/
def parse (osz : Nat) (file : Bytes) : Res File :=
  if file.length < 12 + osz then .err (-1)
  else
    rd32 file 0 >>= fun sig =>
    slice file 4 3 >>= fun hdr =>
    rd32 file 8 >>= fun packs =>
    let version := hdr.getD 0 0
    let idVersion := hdr.getD 1 0
    let chunks := (hdr.getD 2 0).toNat
    if sig ≠ 0x4d494458 ∨ version ≠ 1 ∨ idVersion ≠ 1 then .err (-1)
    else if chunks = 0 then .err (-1)
    else
      let lastOff := 12 + (1 + chunks) * 12
      let trailer := file.length - osz
      if trailer < lastOff then .err (-1)
      else
        slice file trailer osz >>= fun sum =>
        chunkLoop file trailer chunks 12 lastOff none (fun _ => {}) >>= fun r =>
        let cs := setLen r.2.2 r.2.1 (trailer - r.1)
        parseNames file packs.toNat (cs .names) >>= fun names =>
        parseFanout file (cs .fanout) >>= fun num =>
        parseTable osz num (cs .lookup) >>= fun _ =>
        parseTable 8 num (cs .offsets) >>= fun _ =>
        parseLarge (cs .large) >>= fun e =>
        .ok ⟨file, names, (cs .fanout).off, num, (cs .lookup).off, (cs .offsets).off, e.1, e.2, sum⟩

/-- `git_midx_needs_refresh`, with the contents that the file has now: src/libgit2/midx.c:343-378 -/
def needsRefresh (osz : Nat) (f : File) (now : Bytes) : Bool :=
  now.length ≠ f.file.length || now.drop (now.length - osz) ≠ f.checksum

/-- `git_midx_entry`: src/libgit2/midx.h:70-77; the offset is the 64-bit pattern of `off64_t` -/
structure Entry where
  pack : Nat
  off : Nat
  id : Bytes
  deriving DecidableEq, Repr

/-- the end of `git_midx_entry_find`: src/libgit2/midx.c:432-453: the object at the position `pos` -/
def entryAt (f : File) (pos : Nat) (id : Bytes) : Res Entry :=
  rd32 f.file (f.offsets + pos * 8 + 4) >>= fun off =>
  (if f.numLarge ≠ 0 ∧ off.toNat ≥ 2 ^ 31 then
     let x := off.toNat % 2 ^ 31
     if x ≥ f.numLarge then .err ENOTFOUND
     -- the product has 32 bits
     else rd32 f.file (f.large + 8 * x % 2 ^ 32) >>= fun h => rd32 f.file (f.large + 8 * x % 2 ^ 32 + 4) >>= fun l => .ok (h.toNat * 2 ^ 32 + l.toNat)
   else .ok off.toNat) >>= fun off =>
  rd32 f.file (f.offsets + pos * 8) >>= fun pack =>
  if pack.toNat ≥ f.names.length then .err (-1)
  else .ok ⟨pack.toNat, off, id⟩

/-- `git_midx_entry_find`: src/libgit2/midx.c:380-454 -/
def entryFind (osz : Nat) (f : File) (short : Bytes) (len : Nat) : Res Entry :=
  match short with
  | [] => .ub
  | b0 :: _ =>
    rd32 f.file (f.fanout + 4 * b0.toNat) >>= fun hi =>
    (if b0 = 0 then .ok 0 else rd32 f.file (f.fanout + 4 * (b0.toNat - 1)) >>= fun l => .ok l.toNat) >>= fun lo =>
    PackIdx.find osz ⟨f.file, f.lookup, osz⟩ f.num lo hi.toNat short len >>= fun r =>
    entryAt f r.1 r.2

/-- the loop of `git_midx_foreach_entry`: src/libgit2/midx.c:469-475; `n` ids are left. The ids that the callback is given (it does not stop the loop) -/
def foreachLoop (osz : Nat) (f : File) : Nat → Res (List Bytes)
  | 0 => .ok []
  | n + 1 => slice f.file (f.lookup + (f.num - (n + 1)) * osz) osz >>= fun id => foreachLoop osz f n >>= fun r => .ok (id :: r)

/-- `git_midx_foreach_entry`: src/libgit2/midx.c:456-478 -/
def foreachEntry (osz : Nat) (f : File) : Res (List Bytes) := foreachLoop osz f f.num

/-! ### writing -/

/-- a pack that was added: its path relative to the directory of the writer, and the objects that `git_pack_foreach_entry_offset` gives (C45)
[src/libgit2/midx.c:570-595, 727-741]. Packs are sorted by their full paths; for packs in that directory this is the order of the relative ones. -/
structure Pack where
  name : Bytes
  entries : List (Bytes × Nat)
  deriving DecidableEq, Repr

/-- `packfile__cmp`: src/libgit2/midx.c:502-508 -/
def packCmp (a b : Pack) : Int := bcmp a.name b.name

/-- the names of the indexes: src/libgit2/midx.c:743-755 -/
def nameBytes : List Pack → Res Bytes
  | [] => .ok []
  | p :: ps =>
    if p.name.length ≤ 5 || !suffixed p.name b!".pack" then .err (-1)
    else nameBytes ps >>= fun r => .ok (p.name.take (p.name.length - 5) ++ b!".idx" ++ [0] ++ r)

/-- the objects of the packs, `i` of which come before: src/libgit2/midx.c:727-760 and `object_entry__cb` (:604-616) -/
def allEntries : Nat → List Pack → List Entry
  | _, [] => []
  | i, p :: ps => (p.entries.map fun e => ⟨i, e.2, e.1⟩) ++ allEntries (i + 1) ps

/-- `object_entry__cmp`: src/libgit2/midx.c:618-624 -/
def entryCmp (a b : Entry) : Int := bcmp a.id b.id

/-- `git_vector_uniq` on a sorted vector: src/util/vector.c:270-291 (see C49) -/
def uniq : List Entry → List Entry
  | [] => []
  | [a] => [a]
  | a :: b :: r => if entryCmp a b = 0 then uniq (b :: r) else a :: uniq (b :: r)

/-- padding to a multiple of four: src/libgit2/midx.c:774-776 -/
def padTo4 (b : Bytes) : Bytes := b ++ List.replicate ((4 - b.length % 4) % 4) 0

/-- the loop filling the fan-out table at one index: src/libgit2/midx.c:781-783; `es` are the entries not counted yet -/
def fanCount (i : Nat) : List Entry → Nat → Nat × List Entry
  | [], k => (k, [])
  | e :: es, k => if (e.id.headD 0).toNat ≤ i then fanCount i es (k + 1) else (k, e :: es)

/-- the fan-out table: src/libgit2/midx.c:778-785; `n` entries are left -/
def fanTable : Nat → List Entry → Nat → List Nat
  | 0, _, _ => []
  | n + 1, es, k => let r := fanCount (256 - (n + 1)) es k; r.1 :: fanTable n r.2 r.1

/-- `htonl((uint32_t)n)` [src/libgit2/midx.c:801] -/
def word (n : Nat) : Bytes := be32 (UInt32.ofNat n)

/-- `write_offset`: src/libgit2/midx.c:626-641 -/
def offset64 (n : Nat) : Bytes := word (n / 2 ^ 32) ++ word (n % 2 ^ 32)

/-- the loop over the objects: src/libgit2/midx.c:796-816; the offsets and the large offsets, `k` of which were written before -/
def offsetLoop : List Entry → Nat → Bytes × Bytes
  | [], _ => ([], [])
  | e :: es, k =>
    if e.off ≥ 2 ^ 31 then
      let r := offsetLoop es (k + 1)
      (word e.pack ++ word (2 ^ 31 + k % 2 ^ 31) ++ r.1, offset64 e.off ++ r.2)
    else
      let r := offsetLoop es k
      (word e.pack ++ word e.off ++ r.1, r.2)

/-- `write_chunk_header`: src/libgit2/midx.c:643-652 -/
def chunkHeader (id off : Nat) : Bytes := word id ++ offset64 off

/-- everything before the checksum: src/libgit2/midx.c:818-870 -/
def body (packs : Nat) (names : Bytes) (fan : List Nat) (lookup offsets large : Bytes) : Bytes :=
  let chunks := if large.length > 0 then 5 else 4
  let o0 := 12 + (chunks + 1) * 12
  let o1 := o0 + names.length
  let o2 := o1 + 1024
  let o3 := o2 + lookup.length
  let o4 := o3 + offsets.length
  word 0x4d494458 ++ [1, 1, UInt8.ofNat chunks, 0] ++ word packs ++
    chunkHeader 0x504e414d o0 ++ chunkHeader 0x4f494446 o1 ++ chunkHeader 0x4f49444c o2 ++ chunkHeader 0x4f4f4646 o3 ++
    (if large.length > 0 then chunkHeader 0x4c4f4646 o4 else []) ++
    chunkHeader 0 (if large.length > 0 then o4 + large.length else o4) ++
    names ++ fan.flatMap word ++ lookup ++ offsets ++ large

/-- `midx_write`: src/libgit2/midx.c:680-892 (`git_midx_writer_dump`, and `git_midx_writer_commit` writes the same to the file); `sum` is the hash -/
def write (sum : Bytes → Bytes) (packs : List Pack) : Res Bytes :=
  Sort.tsort packCmp packs >>= fun ps =>
  nameBytes ps >>= fun names =>
  Sort.tsort entryCmp (allEntries 0 ps) >>= fun l =>
  let es := uniq l
  let d := offsetLoop es 0
  let b := body packs.length (padTo4 names) (fanTable 256 es 0) (es.flatMap (·.id)) d.1 d.2
  .ok (b ++ sum b)

end Verif.Midx
