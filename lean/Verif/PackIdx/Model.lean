import Verif.BE
import Verif.Cmp
import Verif.Oid.Model
/-! # Pack indexes (src/libgit2/pack.c, src/libgit2/indexer.c)

Index files with fewer than 2^26 objects: for larger ones (over 1.8 GB) some of the 32-bit products in the code (`pos * stride`, `4 * n`,
`(nr - 1) * 8`) can overflow, which is not modelled. Ids have `osz` bytes (20, or 32). Pack offsets are the 64-bit pattern of `off64_t`. -/
namespace Verif.PackIdx

/-- an index that was accepted [src/libgit2/pack.h:108-137] -/
structure Idx where
  file : Bytes
  version : Nat
  nr : Nat
  deriving DecidableEq, Repr

/-- `ENOTFOUND`, `EAMBIGUOUS`: include/git2/errors.h -/
def ENOTFOUND : Int := -3
/-- [include/git2/errors.h:34] -/
def EAMBIGUOUS : Int := -5

/-- the loop over the fan-out table in `pack_index_check_locked`: src/libgit2/pack.c:247-254; `i` entries are still to be read -/
def fanLoop (file : Bytes) (base : Nat) : Nat → Nat → Res Nat
  | 0, nr => .ok nr
  | i + 1, nr => rd32 file (base + 4 * (256 - (i + 1))) >>= fun n => if n.toNat < nr then .err (-1) else fanLoop file base i n.toNat

/-- `pack_index_check_locked`: src/libgit2/pack.c:199-303, on the contents of a regular file -/
def checkIndex (osz : Nat) (file : Bytes) : Res Idx :=
  if file.length < 4 * 256 + osz * 2 then .err (-1)
  else
    rd32 file 0 >>= fun sig =>
    rd32 file 4 >>= fun v =>
    if sig = 0xff744f63 ∧ v ≠ 2 then .err (-1)
    else
      let version := if sig = 0xff744f63 then v.toNat else 1
      fanLoop file (if version > 1 then 8 else 0) 256 0 >>= fun nr =>
      if version = 1 then
        if file.length ≠ 4 * 256 + nr * (osz + 4) + osz * 2 then .err (-1) else .ok ⟨file, version, nr⟩
      else
        let min := 8 + 4 * 256 + nr * (osz + 4 + 4) + osz * 2
        let max := if nr ≠ 0 then min + (nr - 1) * 8 else min
        if file.length < min ∨ file.length > max then .err (-1) else .ok ⟨file, version, nr⟩

/-- `nth_packed_object_offset_locked`: src/libgit2/pack.c:1261-1284 -/
def nthOffset (osz : Nat) (p : Idx) (n : Nat) : Res Nat :=
  if p.version = 1 then rd32 p.file (4 * 256 + (osz + 4) * n) >>= fun o => .ok o.toNat
  else
    let index := 4 * 256 + 8 + p.nr * (osz + 4)
    rd32 p.file (index + 4 * n) >>= fun off32 =>
    if off32.toNat < 2 ^ 31 then .ok off32.toNat
    else
      -- the product has 32 bits
      let index := index + p.nr * 4 + off32.toNat % 2 ^ 31 * 8 % 2 ^ 32
      if index ≥ p.file.length - 8 then .err (-1)
      else rd32 p.file index >>= fun h => rd32 p.file (index + 4) >>= fun l => .ok (h.toNat * 2 ^ 32 + l.toNat)

/-- an id table: the id number `n` is at `base + n * stride` [src/libgit2/pack.c:1493-1545] -/
structure Table where
  file : Bytes
  base : Nat
  stride : Nat

/-- [src/libgit2/pack.c:1540-1580] -/
def Table.get (osz : Nat) (t : Table) (n : Nat) : Res Bytes := slice t.file (t.base + n * t.stride) osz

/-- `git_pack__lookup_id`: src/libgit2/pack.c:1466-1491: whether the id is there, and the position where it is or would be. `fuel` bounds the
turns, each of which halves the range. -/
def lookupId (osz : Nat) (t : Table) (short : Bytes) : Nat → Nat → Nat → Res (Bool × Nat)
  | 0, lo, _ => .ok (false, lo)
  | fuel + 1, lo, hi =>
    if lo < hi then
      let mi := (lo + hi) / 2
      Table.get osz t mi >>= fun id =>
      Oid.cmp osz id short >>= fun cmp =>
      if cmp = 0 then .ok (true, mi)
      else if cmp > 0 then lookupId osz t short fuel lo mi
      else lookupId osz t short fuel (mi + 1) hi
    else .ok (false, lo)

/-- the search of `pack_entry_find_offset` (src/libgit2/pack.c:1550-1585), `git_midx_entry_find` (src/libgit2/midx.c) and
`git_commit_graph_entry_find` (src/libgit2/commit_graph.c), which is the same in the three: position and id of the entry -/
def find (osz : Nat) (t : Table) (nr lo hi : Nat) (short : Bytes) (len : Nat) : Res (Nat × Bytes) :=
  lookupId osz t short (hi - lo + 1) lo hi >>= fun r =>
  let pos := r.2
  (if r.1 then .ok true
   else if pos < nr then Table.get osz t pos >>= fun cur => Oid.ncmp osz short cur len >>= fun c => .ok (decide (c = 0))
   else .ok false) >>= fun found =>
  (if found ∧ len ≠ osz * 2 ∧ pos + 1 < nr then
     Table.get osz t (pos + 1) >>= fun next => Oid.ncmp osz short next len >>= fun c => .ok (decide (c = 0))
   else .ok false) >>= fun two =>
  if !found then .err ENOTFOUND
  else if two then .err EAMBIGUOUS
  else Table.get osz t pos >>= fun cur => .ok (pos, cur)

/-- `pack_entry_find_offset`: src/libgit2/pack.c:1493-1612, on an open index: the offset and the whole id -/
def findOffset (osz : Nat) (p : Idx) (short : Bytes) (len : Nat) : Res (Nat × Bytes) :=
  match short with
  | [] => .ub
  | b0 :: _ =>
    let ofsDelta := if p.version > 1 then 2 else 0
    -- "out of bounds": no error code is set, and no offset
    if b0.toNat + ofsDelta ≥ p.file.length then .ok (0, [])
    else
      rd32 p.file (4 * (ofsDelta + b0.toNat)) >>= fun hi =>
      (if b0 = 0 then .ok 0 else rd32 p.file (4 * (ofsDelta + (b0.toNat - 1))) >>= fun l => .ok l.toNat) >>= fun lo =>
      let t : Table := if p.version > 1 then ⟨p.file, 8 + 4 * 256, osz⟩ else ⟨p.file, 4 * 256 + 4, osz + 4⟩
      find osz t p.nr lo hi.toNat short len >>= fun r =>
      nthOffset osz p r.1 >>= fun off => if off ≥ 2 ^ 63 then .err (-1) else .ok (off, r.2)

/-- the loop of `git_pack_foreach_entry_offset` for version 2: src/libgit2/pack.c:1433-1452; `n` entries are still to be visited -/
def foreachLoop (osz : Nat) (p : Idx) : Nat → Res (List (Bytes × Nat))
  | 0 => .ok []
  | n + 1 =>
    let i := p.nr - (n + 1)
    let index := 8 + 4 * 256
    let offsets := index + (osz + 4) * p.nr
    let large := index + (osz + 8) * p.nr
    rd32 p.file (offsets + 4 * i) >>= fun cur =>
    (if cur.toNat ≥ 2 ^ 31 then
       let ptr := large + cur.toNat % 2 ^ 31 * 8
       if ptr ≥ p.file.length - osz then .err (-1)
       else rd32 p.file ptr >>= fun h => rd32 p.file (ptr + 4) >>= fun l => .ok (h.toNat * 2 ^ 32 + l.toNat)
     else .ok cur.toNat) >>= fun off =>
    slice p.file (index + osz * i) osz >>= fun id =>
    foreachLoop osz p n >>= fun r => .ok ((id, off) :: r)

/-- the loop for version 1: src/libgit2/pack.c:1453-1461 -/
def foreachLoop1 (osz : Nat) (p : Idx) : Nat → Res (List (Bytes × Nat))
  | 0 => .ok []
  | n + 1 =>
    let i := p.nr - (n + 1)
    rd32 p.file (4 * 256 + (osz + 4) * i) >>= fun off =>
    slice p.file (4 * 256 + (osz + 4) * i + 4) osz >>= fun id =>
    foreachLoop1 osz p n >>= fun r => .ok ((id, off.toNat) :: r)

/-- `git_pack_foreach_entry_offset`: src/libgit2/pack.c:1391-1464: the entries the callback is given (it does not stop the loop) -/
def foreachEntry (osz : Nat) (p : Idx) : Res (List (Bytes × Nat)) :=
  if p.version > 1 then foreachLoop osz p p.nr else foreachLoop1 osz p p.nr

/-! ### writing -/

/-- `struct entry`: src/libgit2/indexer.c; `off` is the offset in the pack -/
structure Entry where
  id : Bytes
  crc : UInt32
  off : Nat
  deriving DecidableEq, Repr

/-- the objects and the fan-out table of the indexer [src/libgit2/indexer.c:40-77] -/
structure Indexer where
  objects : List Entry := []
  fanout : Nat → Nat := fun _ => 0

/-- `save_entry`: src/libgit2/indexer.c:568-596; an id that is there already is refused -/
def saveEntry (s : Indexer) (e : Entry) : Res Indexer :=
  if s.objects.any (fun x => x.id = e.id) then .err (-1)
  else match e.id with
    | [] => .ub
    | b0 :: _ => .ok { objects := s.objects ++ [e], fanout := fun i => if b0.toNat ≤ i ∧ i < 256 then s.fanout i + 1 else s.fanout i }

/-- [src/libgit2/indexer.c:568-596, once per object] -/
def saveAll : List Entry → Indexer → Res Indexer
  | [], s => .ok s
  | e :: es, s => saveEntry s e >>= saveAll es

/-- the offset table of `git_indexer_commit`: src/libgit2/indexer.c:1352-1363; `k` long offsets were written -/
def offsetTable : List Entry → Nat → Bytes
  | [], _ => []
  | e :: es, k =>
    if e.off > 0x7fffffff then be32 (UInt32.ofNat (2 ^ 31 + k)) ++ offsetTable es (k + 1)
    else be32 (UInt32.ofNat e.off) ++ offsetTable es k

/-- the table of long offsets: src/libgit2/indexer.c:1365-1376 -/
def longTable (es : List Entry) : Bytes :=
  (es.filter (fun e => e.off > 0x7fffffff)).flatMap fun e => be32 (UInt32.ofNat (e.off / 2 ^ 32)) ++ be32 (UInt32.ofNat (e.off % 2 ^ 32))

/-- the file written by `git_indexer_commit`: src/libgit2/indexer.c:1326-1387; `sorted` are the objects after `git_vector_sort` (see C26),
`trailer` the pack's checksum and `sum` the checksum of what is before it -/
def writeIdx (fanout : Nat → Nat) (sorted : List Entry) (trailer : Bytes) (sum : Bytes → Bytes) : Bytes :=
  let body := be32 0xff744f63 ++ be32 2 ++ (List.range 256).flatMap (fun i => be32 (UInt32.ofNat (fanout i))) ++
    sorted.flatMap (·.id) ++ sorted.flatMap (fun e => be32 e.crc) ++ offsetTable sorted 0 ++ longTable sorted ++ trailer
  body ++ sum body

end Verif.PackIdx
