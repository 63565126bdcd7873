import Verif.Pack.Model
import Verif.PackIdx.Model
import Verif.Loose.Model
import Verif.Sort.Model
import Verif.Indexer.Spec
/-! # Indexing a pack that is being received: src/libgit2/indexer.c

* SHA-1: ids and checksums have 20 bytes. The hash functions, zlib, the object database and the parsers of objects are parameters (`Env`).
* The pack file is smaller than a memory window (1 GiB by default), so that a window opened anywhere reaches its end.
* The progress callback returns 0, memory does not run out, reading and writing files succeeds. After an error the indexer is only freed.
* The base cache of `git_packfile_unpack` is empty: C52 shows that what it returns does not depend on it.
* `git_indexer__max_objects` has its default value, which no pack exceeds.
-/
namespace Verif.Indexer
open Verif.Pack (EBUFS REF_DELTA OFS_DELTA isDelta)
open Spec (Infl)

/-- `GIT_PASSTHROUGH`: include/git2/errors.h:62 -/
def PASSTHROUGH : Int := -30

/-- what the indexer works with [src/libgit2/indexer.c:40-77] -/
structure Env where
  sha : Bytes → Bytes
  crc : Bytes → UInt32
  /-- zlib: src/util/zstream.c:87-131 -/
  inflate : Bytes → Infl
  deflate : Bytes → Bytes
  /-- for a file of some size and a stream starting somewhere in it: a position where the buffer of 8192 bytes that takes the output (src/libgit2/indexer.c:65) was full -/
  stall : Nat → Nat → Option Nat
  /-- the ids an object of some type names; `none` when it does not parse: `git_object__from_raw`, src/libgit2/object.c:52-102 -/
  refs : Nat → Bytes → Option (List Bytes)
  /-- `idx->odb`: `none` is `NULL` -/
  odb : Option (Bytes → Option (Nat × Bytes)) := none
  /-- `idx->do_verify` -/
  verify : Bool := false

/-- the stream that is being read: `idx->stream`, `entry_start`, `entry_type` [src/libgit2/indexer.c:40-77]; `start` is where its bytes start -/
structure Stream where
  entry : Nat
  start : Nat
  size : Nat
  type : Nat
  deriving DecidableEq, Repr

/-- `struct git_indexer` and the statistics of the caller: src/libgit2/indexer.c:40-77. `ix` has the objects (which are also those of `pack->idx_cache`) and the fan-out table; `deltas` are
the offsets of the deltas not resolved yet; `hashed` is what was given to the hash `trailer`. -/
structure St where
  file : Bytes := []
  hashed : Bytes := []
  inbuf : Bytes := []
  parsed : Bool := false
  nr : Nat := 0
  off : Nat := 0
  stream : Option Stream := none
  ix : PackIdx.Indexer := {}
  deltas : List Nat := []
  expected : List Bytes := []
  indexed : Nat := 0
  injected : Nat := 0

/-- `hash_partially`: src/libgit2/indexer.c:643-681 -/
def hashPartially (s : St) (data : Bytes) : St :=
  if data.length = 0 then s
  else if data.length ≥ 20 then
    { s with hashed := s.hashed ++ s.inbuf ++ data.take (data.length - 20), inbuf := data.drop (data.length - 20) }
  else if s.inbuf.length + data.length ≤ 20 then { s with inbuf := s.inbuf ++ data }
  else
    let toKeep := 20 - data.length
    let toExpell := s.inbuf.length - toKeep
    { s with hashed := s.hashed ++ s.inbuf.take toExpell, inbuf := (s.inbuf.drop toExpell).take toKeep ++ data }

/-- `git_pack_oidmap_get(…, &idx->pack->idx_cache, …)`: the offset of an object that was saved [src/libgit2/pack.c:1012-1019] -/
def lookup (s : St) (id : Bytes) : Option Nat := (s.ix.objects.find? fun e => e.id == id).map fun e => e.off

/-- the pack as `src/libgit2/pack.c` sees it while it is being indexed [src/libgit2/pack.h:108-137] -/
def view (E : Env) (s : St) : Pack.Pack where
  file := s.file
  left := fun _ => s.file.length
  find := lookup s
  inflate := fun b => match E.inflate b with | .done _ d => some d | _ => none
  absent := PASSTHROUGH

/-- the id of an object whose header says `size`: `hash_header` and `hash_object_stream` (src/libgit2/indexer.c:281-315); also `git_odb__hash` when `size` is the length -/
def objectId (E : Env) (type size : Nat) (data : Bytes) : Res Bytes :=
  Loose.formatHeader 64 size type >>= fun h => .ok (E.sha (h ++ data))

/-- `git_odb_exists(idx->odb, oid)` when there is a database [src/libgit2/indexer.c:385, 425] -/
def known (E : Env) (id : Bytes) : Bool := match E.odb with | none => false | some f => (f id).isSome

/-- `add_expected_oid`: src/libgit2/indexer.c:378-395 -/
def addExpected (E : Env) (s : St) (id : Bytes) : St :=
  if !known E id && (lookup s id).isNone && !s.expected.contains id then { s with expected := s.expected ++ [id] } else s

/-- `check_object_connectivity`: src/libgit2/indexer.c:397-476 -/
def checkConnectivity (E : Env) (s : St) (type : Nat) (data : Bytes) : Res St :=
  if ¬ (type = Pack.COMMIT ∨ type = Pack.TREE ∨ type = Pack.BLOB ∨ type = Pack.TAG) then .ok s
  else match E.refs type data with
    | none => .err (-1)
    | some ids =>
      objectId E type data.length data >>= fun id =>
      let s := { s with expected := s.expected.filter fun x => x ≠ id }
      if known E id then .ok s else .ok (ids.foldl (addExpected E) s)

/-- `crc_object`: src/libgit2/indexer.c:354-376, of the bytes from `start` to `stop` -/
def crcObject (E : Env) (s : St) (start stop : Nat) : UInt32 := E.crc ((s.file.drop start).take (stop - start))

/-- `check_object_connectivity` where `do_verify` is on [src/libgit2/indexer.c:509-518, 1155] -/
def verified (E : Env) (s : St) (type : Nat) (data : Bytes) : Res St :=
  if E.verify then checkConnectivity E s type data else .ok s

/-- `store_object`: src/libgit2/indexer.c:478-561, for the object whose stream `st` gave `data` and ended at `s.off` -/
def storeObject (E : Env) (s : St) (st : Stream) (data : Bytes) : Res St :=
  objectId E st.type st.size data >>= fun id =>
  verified E s st.type data >>= fun s =>
  PackIdx.saveEntry s.ix ⟨id, crcObject E s st.entry s.off, st.entry⟩ >>= fun ix => .ok { s with ix := ix }

/-- the outcome of `read_stream_object`: one object was read, or `GIT_EBUFS`, or another error -/
inductive Step where
  | ready (s : St)
  | wait (s : St)
  | fail (e : Int)
  | ub

/-- where reading from the stream stops because a window is wanted for the last 20 bytes of the file: `git_packfile_stream_read`, src/libgit2/pack.c:856-857. zlib consumes less than `limit`. -/
def stallAt (E : Env) (s : St) (st : Stream) (limit : Nat) : Option Nat :=
  match E.stall s.file.length st.start with
  | none => none
  | some c => if s.file.length < c + 20 ∧ s.off ≤ c ∧ c < limit then some c else none

/-- the end of `read_stream_object`: src/libgit2/indexer.c:847-876, and `store_delta` (267-279) -/
def finish (E : Env) (s : St) (st : Stream) (data : Bytes) : Step :=
  if isDelta st.type then .ready { s with deltas := s.deltas ++ [st.entry] }
  else match storeObject E s st data with
    | .ok s => .ready { s with indexed := s.indexed + 1 }
    | .err e => .fail e
    | .ub => .ub

/-- reading the stream: `hash_object_stream` and `read_object_stream` (src/libgit2/indexer.c:294-315, 338-352) and lines 837-854; the stream is read again from its start when more bytes have
come, which gives the same bytes -/
def readBody (E : Env) (s : St) (st : Stream) : Step :=
  let s := { s with stream := some st }
  if s.file.length < s.off + 20 then .wait s
  else match E.inflate (s.file.drop st.start) with
    | .bad => match stallAt E s st (s.file.length + 1) with
      | some c => .wait { s with off := c }
      | none => .fail (-1)
    | .more => .wait { s with off := (stallAt E s st (s.file.length + 1)).getD s.file.length }
    | .done n d => match stallAt E s st (st.start + n) with
      | some c => .wait { s with off := c }
      | none => finish E { s with off := st.start + n, stream := none } st d

/-- `read_stream_object`: src/libgit2/indexer.c:788-877 -/
def readObject (E : Env) (s : St) : Step :=
  if s.file.length ≤ s.off + 20 then .wait s
  else match s.stream with
    | some st => readBody E s st
    | none => match Pack.unpackHeader (view E s) s.off with
      | .err e => if e = EBUFS then .wait s else .fail e
      | .ub => .ub
      | .ok (type, size, pos) =>
        if type = REF_DELTA then readBody E { s with off := pos + 20 } ⟨s.off, pos + 20, size, type⟩
        else if type = OFS_DELTA then match Pack.getDeltaBase (view E s) pos type s.off with
          | .err e => if e = EBUFS then .wait s else .fail e
          | .ub => .ub
          | .ok (_, pos') => readBody E { s with off := pos' } ⟨s.off, pos', size, type⟩
        else readBody E { s with off := pos } ⟨s.off, pos, size, type⟩

/-- the loop of `git_indexer_append`: src/libgit2/indexer.c:941-948. Every object that is read moves `off` on, so it turns at most once per byte. -/
def readLoop (E : Env) : Nat → St → Res St
  | 0, s => .ok s
  | fuel + 1, s =>
    if s.indexed < s.nr then
      match readObject E s with
      | .ready s => readLoop E fuel s
      | .wait s => .ok s
      | .fail e => .err e
      | .ub => .ub
    else .ok s

/-- `parse_header` (src/libgit2/indexer.c:95-118) and lines 897-933 -/
def parseHeader (s : St) : Res St :=
  rd32 s.file 0 >>= fun sig =>
  rd32 s.file 4 >>= fun version =>
  rd32 s.file 8 >>= fun n =>
  if sig ≠ 0x5041434b then .err (-1)
  else if version ≠ 2 then .err (-1)
  else .ok { s with parsed := true, nr := n.toNat, off := 12, indexed := 0 }

/-- `git_indexer_append`: src/libgit2/indexer.c:879-955. `hash_partially` is given `(int)size`, which is converted to `size_t`: a size from 2^31 to 2^32 - 1 becomes huge. -/
def append (E : Env) (s : St) (data : Bytes) : Res St :=
  if data.length % 2 ^ 32 ≥ 2 ^ 31 then .ub
  else
    let s := hashPartially s (data.take (data.length % 2 ^ 32))
    let s := { s with file := s.file ++ data }
    if s.parsed then readLoop E (s.file.length + 1) s
    else if s.file.length % 2 ^ 32 < 12 then .ok s
    else parseHeader s >>= fun s => readLoop E (s.file.length + 1) s

/-- one call of `git_indexer_append` per piece [src/libgit2/indexer.c:879-955] -/
def appendAll (E : Env) : List Bytes → St → Res St
  | [], s => .ok s
  | d :: ds, s => append E s d >>= appendAll E ds

/-! ### committing -/

/-- where the entry at `off` ends, which is where `git_packfile_unpack` leaves `idx->off`: src/libgit2/pack.c:826-827 -/
def entryEnd (E : Env) (s : St) (off : Nat) : Nat :=
  match Pack.unpackHeader (view E s) off with
  | .ok (type, _, pos) =>
    match Pack.getDeltaBase (view E s) pos type off with
    | .ok (_, pos') => match E.inflate (s.file.drop pos') with
      | .done n _ => pos' + n
      | _ => off
    | _ => off
  | _ => off

/-- `hash_and_save`: src/libgit2/indexer.c:598-631, and `save_entry` (568-596) -/
def hashAndSave (E : Env) (s : St) (type : Nat) (data : Bytes) (off : Nat) : Res St :=
  Loose.hashObj E.sha ⟨type, data.length, data⟩ >>= fun id =>
  PackIdx.saveEntry s.ix ⟨id, crcObject E s off (entryEnd E s off), off⟩ >>= fun ix => .ok { s with ix := ix }

/-- one turn of the inner loop of `resolve_deltas`: src/libgit2/indexer.c:1139-1172; whether the delta was resolved. `none`: `git_packfile_unpack` does not end. -/
def resolveOne (E : Env) (fuel : Nat) (s : St) (off : Nat) : Option (Res (St × Bool)) :=
  match Pack.unpack (view E s) (fun _ _ => none) fuel off with
  | none => none
  | some .ub => some .ub
  | some (.err e) => some (if e = PASSTHROUGH then .ok (s, false) else .err (-1))
  | some (.ok ((type, data), _)) =>
    match verified E s type data with
    | .ub => some .ub
    | .err _ => some (.ok (s, false))
    | .ok s => match hashAndSave E s type data off with
      | .ub => some .ub
      | .err _ => some (.ok (s, false))
      | .ok s => some (.ok ({ s with indexed := s.indexed + 1 }, true))

/-- the inner loop of `resolve_deltas`: src/libgit2/indexer.c:1139-1172: the state, the deltas that are left, and whether one was resolved -/
def resolvePass (E : Env) (fuel : Nat) : List Nat → St → Option (Res (St × List Nat × Bool))
  | [], s => some (.ok (s, [], false))
  | d :: ds, s =>
    match resolveOne E fuel s d with
    | none => none
    | some .ub => some .ub
    | some (.err e) => some (.err e)
    | some (.ok (s, r)) => (resolvePass E fuel ds s).map fun x => x >>= fun y => .ok (y.1, if r then y.2.1 else d :: y.2.1, r || y.2.2)

/-- the first delta that names its base by id: the loop of `fix_thin_pack`, src/libgit2/indexer.c:1088-1107; where the id is -/
def firstRef (E : Env) (s : St) : List Nat → Res Nat
  | [] => .err (-1)
  | d :: ds => Pack.unpackHeader (view E s) d >>= fun r => if r.1 = REF_DELTA then .ok r.2.2 else firstRef E s ds

/-- `inject_object`: src/libgit2/indexer.c:988-1065 -/
def inject (E : Env) (s : St) (odb : Bytes → Option (Nat × Bytes)) (id : Bytes) : Res St :=
  match odb id with
  | none => .err (-1)
  | some (type, data) =>
    Pack.objectHeader data.length type >>= fun hdr =>
    let start := s.file.length - 20
    let body := hdr ++ E.deflate data
    PackIdx.saveEntry s.ix ⟨id, E.crc body, start⟩ >>= fun ix =>
    .ok { s with file := s.file.take start ++ body ++ List.replicate 20 0, ix := ix, injected := s.injected + 1 }

/-- `fix_thin_pack`: src/libgit2/indexer.c:1067-1127 -/
def fixThinPack (E : Env) (s : St) : Res St :=
  match E.odb with
  | none => .err (-1)
  | some odb =>
    firstRef E s s.deltas >>= fun pos =>
    if s.file.length < pos + 20 then .err (-1)
    else
      let base := (s.file.drop pos).take 20
      if (lookup s base).isSome then .ok s else inject E s odb base

/-- `resolve_deltas`: src/libgit2/indexer.c:1129-1184. `none`: the loop has not ended after as many turns. -/
def resolveDeltas (E : Env) (fuel : Nat) : Nat → St → Option (Res St)
  | 0, _ => none
  | turns + 1, s =>
    if s.deltas = [] then some (.ok s)
    else match resolvePass E fuel s.deltas s with
      | none => none
      | some .ub => some .ub
      | some (.err e) => some (.err e)
      | some (.ok (s, left, progressed)) =>
        let s := { s with deltas := left }
        if progressed then resolveDeltas E fuel turns s
        else match fixThinPack E s with
          | .ok s => resolveDeltas E fuel turns s
          | .err _ => some (.err (-1))
          | .ub => some .ub

/-- `update_header_and_rehash` (src/libgit2/indexer.c:1186-1227) and the checksum written after it (1290-1296): the file and its checksum. It is hashed as one window. -/
def rehash (E : Env) (s : St) : Bytes × Bytes :=
  let file := be32 0x5041434b ++ be32 2 ++ be32 (UInt32.ofNat (s.nr + s.injected)) ++ s.file.drop 12
  let sum := E.sha (hashPartially {} file).hashed
  (file.take (file.length - 20) ++ sum, sum)

/-- what is there after `git_indexer_commit`: the contents of `pack-<name>.pack` and `pack-<name>.idx`, and the bytes of the name [src/libgit2/indexer.c:1310-1436] -/
structure Done where
  pack : Bytes
  idx : Bytes
  name : Bytes
  deriving DecidableEq, Repr

/-- `objects_cmp`: src/libgit2/indexer.c:120-126; the ids have the same length -/
def objectsCmp (a b : PackIdx.Entry) : Int := bcmp a.id b.id

/-- `git_indexer_commit` after the deltas are resolved: src/libgit2/indexer.c:1282-1445 -/
def writeOut (E : Env) (s : St) (sum : Bytes) : Res Done :=
  if s.indexed ≠ s.nr then .err (-1)
  else
    let r := if s.injected > 0 then rehash E s else (s.file, sum)
    if s.expected ≠ [] then .err (-1)
    else Sort.tsort objectsCmp s.ix.objects >>= fun sorted => .ok ⟨r.1, PackIdx.writeIdx s.ix.fanout sorted r.2 E.sha, r.2⟩

/-- `git_indexer_commit`: src/libgit2/indexer.c:1229-1445. A stream that is still being read, and the bytes kept out of the hash, play no role from here on. -/
def commit (E : Env) (fuel : Nat) (s : St) : Option (Res Done) :=
  if !s.parsed then some (.err (-1))
  else if s.off + 20 < s.file.length then some (.err (-1))
  else if s.off + 20 > s.file.length then some (.err (-1))
  else if E.sha s.hashed ≠ s.file.drop (s.file.length - 20) then some (.err (-1))
  else match resolveDeltas E fuel fuel { s with stream := none, inbuf := [] } with
    | none => none
    | some .ub => some .ub
    | some (.err e) => some (.err e)
    | some (.ok s') => some (writeOut E s' (E.sha s.hashed))

/-- a whole session: `git_indexer_new`, `git_indexer_append` for every piece, `git_indexer_commit` [src/libgit2/indexer.c:249-257, 879-955, 1229-1445] -/
def index (E : Env) (fuel : Nat) (pieces : List Bytes) : Option (Res Done) :=
  match appendAll E pieces {} with
  | .ok s => commit E fuel s
  | .err e => some (.err e)
  | .ub => some .ub

end Verif.Indexer
