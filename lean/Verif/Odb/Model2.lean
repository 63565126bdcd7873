import Verif.Odb.Model
/-! # Model of the two backends that every repository has: `src/libgit2/odb_loose.c` and `src/libgit2/odb_pack.c` (looking things up, refreshing, writing loose objects)

Paths are relative to the directory of the backend. What is in a file is what reading it gives (C15-C17 for loose objects, C52 for packs); searching one index is a function (C45), so is searching
one multi-pack-index (C63, C64). -/
namespace Verif.Odb

/-- an entry of `objects/xx`: what reading it as a loose object gives [src/libgit2/odb_loose.c:345-371] -/
structure LFile where
  dir : Bytes
  name : Bytes
  isDir : Bool
  content : Res Obj

/-- `loose_backend` [src/libgit2/odb_loose.c:46-54]: what is in the directories, in their order. `ro`: that nothing can be written. -/
structure LooseB where
  osz : Nat
  files : List LFile
  ro : Bool

/-- `object_file_name`, `locate_object`: src/libgit2/odb_loose.c:82-99, 451-462 -/
def locate (b : LooseB) (id : Bytes) : Option LFile :=
  match Oid.fmt b.osz id with
  | .ok s => b.files.find? fun f => f.dir = s.take 2 ∧ f.name = s.drop 2
  | _ => none

/-- `git_fs_path_direach` with `fn_locate_object_short_oid`: src/libgit2/odb_loose.c:465-496. `s`: the digits of the abbreviation; how many were found, and the first of them -/
def scanShort (osz : Nat) (s : Bytes) (len : Nat) : List LFile → Nat → Bytes → Nat × Bytes
  | [], n, res => (n, res)
  | f :: fs, n, res =>
    if f.dir = s.take 2 ∧ f.name.length = 2 * osz - 2 ∧ f.isDir = false ∧ f.name.take (len - 2) = (s.drop 2).take (len - 2) then
      if n + 1 > 1 then (n + 1, if n = 0 then f.name else res) else scanShort osz s len fs (n + 1) (if n = 0 then f.name else res)
    else scanShort osz s len fs n res

/-- `locate_object_short_oid`: src/libgit2/odb_loose.c:499-576. A directory that is not there is one with nothing in it. -/
def locateShort (b : LooseB) (key : Bytes) (len : Nat) : Res Bytes := do
  let s ← Oid.fmt b.osz key
  let r := scanShort b.osz s len b.files 0 []
  if r.1 = 0 then .err ENOTFOUND
  else if r.1 > 1 then .err EAMBIGUOUS
  else Oid.fromPrefix b.osz (s.take 2 ++ r.2) (2 * b.osz)

/-- `loose_backend__read`: src/libgit2/odb_loose.c:611-632 -/
def looseRead (b : LooseB) (id : Bytes) : Res Obj :=
  match locate b id with
  | some f => f.content
  | none => .err ENOTFOUND

/-- `loose_backend__read_header`: src/libgit2/odb_loose.c:586-609 (the header is that of the object) -/
def looseHeader (b : LooseB) (id : Bytes) : Res (Nat × Nat) := do
  let o ← looseRead b id
  .ok (o.data.length, o.type)

/-- `loose_backend__read_prefix`: src/libgit2/odb_loose.c:634-673 -/
def looseReadPrefix (b : LooseB) (key : Bytes) (len : Nat) : Res (Bytes × Obj) :=
  if len = 2 * b.osz then do
    let o ← looseRead b key
    .ok (key, o)
  else do
    let id ← locateShort b key len
    let o ← looseRead b id
    .ok (id, o)

/-- `loose_backend__write`: src/libgit2/odb_loose.c:1082-1119, the stream 849-890. It is renamed to its place (C31). -/
def looseWrite (b : LooseB) (id : Bytes) (o : Obj) : LooseB × Res Unit :=
  if b.ro then (b, .err (-1))
  else match Oid.fmt b.osz id with
    | .ok s => ({ b with files := ⟨s.take 2, s.drop 2, false, .ok o⟩ :: b.files.filter fun f => ¬ (f.dir = s.take 2 ∧ f.name = s.drop 2) }, .ok ())
    | _ => (b, .err (-1))

/-- `loose_backend__freshen`: src/libgit2/odb_loose.c:1121-1136, src/util/futils.c:942-953 -/
def looseFreshen (b : LooseB) (id : Bytes) : Res Unit :=
  match locate b id with
  | some _ => if b.ro then .err (-1) else .ok ()
  | none => .err ENOTFOUND

/-- an open pack, `git_pack_file` [src/libgit2/pack.h:108-137]: its path, its time, the search in its index (`git_pack_entry_find`: offset and id), the object at an offset (`git_packfile_unpack`) -/
structure Pk where
  name : Bytes
  mtime : Nat
  find : Bytes → Nat → Res (Nat × Bytes)
  get : Nat → Res Obj

/-- a multi-pack-index, `git_midx_file` [src/libgit2/midx.h:32-65]: what tells it from another, the names of the indexes, the search (`git_midx_entry_find`: number of the pack and offset, and id) -/
structure MidxF where
  stamp : Bytes
  names : List Bytes
  find : Bytes → Nat → Res ((Nat × Nat) × Bytes)

/-- `objects/pack` on disk: whether it is a directory, the names in it, what opening the pack of an index gives, the multi-pack-index if it can be opened -/
structure PDisk where
  isDir : Bool
  listing : List Bytes
  openPack : Bytes → Res Pk
  midx : Option MidxF

/-- `pack_backend` [src/libgit2/odb_pack.c:27-35]. `folder`: `pack_folder` is not NULL. A pack is known by its path. -/
structure PackB where
  osz : Nat
  folder : Bool
  disk : PDisk
  packs : List Pk
  midx : Option MidxF
  midxPacks : List Pk
  last : Option Pk

/-- an entry of a pack, `git_pack_entry` [src/libgit2/pack.h:89-93] -/
structure Ent where
  pk : Pk
  off : Nat
  id : Bytes

/-- `git_pack_entry_find` for a pack: src/libgit2/pack.c:1614-1664 (without the ids that were found bad) -/
def findIn (p : Pk) (key : Bytes) (len : Nat) : Res Ent := do
  let r ← p.find key len
  .ok ⟨p, r.1, r.2⟩

/-- the search in the multi-pack-index: src/libgit2/odb_pack.c:277-284, 323-334 -/
def findMidx (b : PackB) (key : Bytes) (len : Nat) : Res Ent :=
  match b.midx with
  | none => .err ENOTFOUND
  | some m => match m.find key len with
    | .ok r => match b.midxPacks[r.1.1]? with
      | some p => .ok ⟨p, r.1.2, r.2⟩
      | none => .err ENOTFOUND
    | .err e => .err e
    | .ub => .ub

/-- whether the pack is that which something was found in last: `p == last_found` [src/libgit2/odb_pack.c:291, 352] -/
def isLast (last : Option Pk) (p : Pk) : Bool :=
  match last with
  | some l => decide (l.name = p.name)
  | none => false

/-- the loop of `pack_entry_find`: src/libgit2/odb_pack.c:290-298 -/
def entryLoop (last : Option Pk) (key : Bytes) (len : Nat) : List Pk → Option Ent
  | [] => none
  | p :: ps =>
    if isLast last p then entryLoop last key len ps
    else match findIn p key len with
      | .ok e => some e
      | _ => entryLoop last key len ps

/-- the search in the pack which something was found in last: src/libgit2/odb_pack.c:286-288, 336-337 -/
def findLast (b : PackB) (key : Bytes) (len : Nat) : Res Ent :=
  match b.last with
  | some l => findIn l key len
  | none => .err ENOTFOUND

/-- `pack_entry_find` after the multi-pack-index: src/libgit2/odb_pack.c:286-301 -/
def entryFindPacks (b : PackB) (id : Bytes) : PackB × Res Ent :=
  match findLast b id (2 * b.osz) with
  | .ok e => (b, .ok e)
  | _ => match entryLoop b.last id (2 * b.osz) b.packs with
    | some e => ({ b with last := some e.pk }, .ok e)
    | none => (b, .err ENOTFOUND)

/-- `pack_entry_find`: src/libgit2/odb_pack.c:270-302 -/
def entryFind (b : PackB) (id : Bytes) : PackB × Res Ent :=
  match findMidx b id (2 * b.osz) with
  | .ok e => (b, .ok e)
  | _ => entryFindPacks b id

/-- one search of `pack_entry_find_prefix`: src/libgit2/odb_pack.c:324-333, 337-346, 355-364 -/
def joinFound (found : Option Ent) : Res Ent → Res (Option Ent)
  | .ok x => match found with
    | some y => if y.id ≠ x.id then .err EAMBIGUOUS else .ok (some x)
    | none => .ok (some x)
  | .err e => if e = EAMBIGUOUS then .err e else .ok found
  | .ub => .ub

/-- the loop of `pack_entry_find_prefix`: src/libgit2/odb_pack.c:350-362 -/
def prefixPacks (last : Option Pk) (key : Bytes) (len : Nat) : List Pk → Option Ent → Option Pk → Option Pk × Res (Option Ent)
  | [], found, l => (l, .ok found)
  | p :: ps, found, l =>
    if isLast last p then prefixPacks last key len ps found l
    else match joinFound found (findIn p key len) with
      | .ok found' => prefixPacks last key len ps found' (match findIn p key len with
        | .ok _ => some p
        | _ => l)
      | .err e => (l, .err e)
      | .ub => (l, .ub)

/-- `pack_entry_find_prefix`: src/libgit2/odb_pack.c:304-369. When the object is found in the multi-pack-index its pack is asked again only if it is the last one. -/
def entryFindPrefix (b : PackB) (key : Bytes) (len : Nat) : PackB × Res Ent :=
  match joinFound none (findMidx b key len) with
  | .err e => (b, .err e)
  | .ub => (b, .ub)
  | .ok f1 => match joinFound f1 (findLast b key len) with
    | .err e => (b, .err e)
    | .ub => (b, .ub)
    | .ok f2 =>
      let r := prefixPacks b.last key len b.packs f2 b.last
      ({ b with last := r.1 }, match r.2 with
        | .ok (some e) => .ok e
        | .ok none => .err ENOTFOUND
        | .err e => .err e
        | .ub => .ub)

/-- `pack_backend__read`: src/libgit2/odb_pack.c:588-605 -/
def packRead (b : PackB) (id : Bytes) : PackB × Res Obj :=
  ((entryFind b id).1, do
    let e ← (entryFind b id).2
    e.pk.get e.off)

/-- `pack_backend__read_header`: src/libgit2/odb_pack.c:548-564 (the header is that of the object, C52) -/
def packHeader (b : PackB) (id : Bytes) : PackB × Res (Nat × Nat) :=
  ((entryFind b id).1, do
    let e ← (entryFind b id).2
    let o ← e.pk.get e.off
    .ok (o.data.length, o.type))

/-- `pack_backend__read_prefix`: src/libgit2/odb_pack.c:607-643 -/
def packReadPrefix (b : PackB) (key : Bytes) (len : Nat) : PackB × Res (Bytes × Obj) :=
  if len < MINPREFIXLEN then (b, .err EAMBIGUOUS)
  else if len ≥ 2 * b.osz then
    ((packRead b key).1, do
      let o ← (packRead b key).2
      .ok (key, o))
  else
    ((entryFindPrefix b key len).1, do
      let e ← (entryFindPrefix b key len).2
      let o ← e.pk.get e.off
      .ok (e.id, o))

/-- `pack_backend__exists_prefix`: src/libgit2/odb_pack.c:651-661 -/
def packHasPrefix (b : PackB) (key : Bytes) (len : Nat) : PackB × Res Bytes :=
  ((entryFindPrefix b key len).1, do
    let e ← (entryFindPrefix b key len).2
    .ok e.id)

/-- `pack_backend__freshen`: src/libgit2/odb_pack.c:566-586 (that touching the pack fails is not modelled) -/
def packFreshen (b : PackB) (id : Bytes) : PackB × Res Unit :=
  ((entryFind b id).1, do
    let _ ← (entryFind b id).2
    .ok ())

/-- `remove_multi_pack_index`: src/libgit2/odb_pack.c:382-400 -/
def removeMidx (b : PackB) : PackB := { b with packs := b.packs ++ b.midxPacks, midxPacks := [], midx := none }

/-- the name of an index without `.idx`; none if it is not an index [src/libgit2/odb_pack.c:243-247, 420-424] -/
def stemOf (n : Bytes) : Option Bytes := if n.length > 4 ∧ n.drop (n.length - 4) = b!".idx" then some (n.take (n.length - 4)) else none

/-- `git_vector_search2` with `packfile_byname_search_cmp`: src/libgit2/odb_pack.c:197-203 -/
def byName (stem : Bytes) (ps : List Pk) : Option Nat := ps.findIdx? fun p => stem.isPrefixOf p.name

/-- `process_multi_pack_index_pack`: src/libgit2/odb_pack.c:407-446 -/
def processMidxPack (b : PackB) (n : Bytes) : Res PackB :=
  match stemOf n with
  | none => .err ENOTFOUND
  | some stem => match byName stem b.packs with
    | some i => match b.packs[i]? with
      | some p => .ok { b with midxPacks := b.midxPacks ++ [p], packs := b.packs.eraseIdx i }
      | none => .ub
    | none => match b.disk.openPack n with
      | .ok p => .ok { b with midxPacks := b.midxPacks ++ [p] }
      | .err e => .err e
      | .ub => .ub

/-- the loop of `refresh_multi_pack_index`: src/libgit2/odb_pack.c:489-505 -/
def processMidx : List Bytes → PackB → PackB
  | [], b => b
  | n :: ns, b => match processMidxPack b n with
    | .ok b' => processMidx ns b'
    | _ => removeMidx b

/-- what follows when the multi-pack-index is not up to date: src/libgit2/odb_pack.c:480-507 -/
def openMidx (b : PackB) : PackB :=
  match b.disk.midx with
  | none => b
  | some m => processMidx m.names { b with midx := some m, midxPacks := [] }

/-- whether it is up to date: `git_midx_needs_refresh` [src/libgit2/midx.c:343-378, src/libgit2/odb_pack.c:470-476] -/
def midxSame (m : MidxF) : Option MidxF → Bool
  | some d => decide (d.stamp = m.stamp)
  | none => false

/-- `refresh_multi_pack_index`: src/libgit2/odb_pack.c:453-508; its error is not used -/
def refreshMidx (b : PackB) : PackB :=
  match b.midx with
  | none => openMidx b
  | some m =>
    if midxSame m b.disk.midx then b
    else openMidx (removeMidx b)

/-- `packfile_load__cb`: src/libgit2/odb_pack.c:235-268 -/
def loadPack (b : PackB) (n : Bytes) : Res PackB :=
  match stemOf n with
  | none => .ok b
  | some stem =>
    if (byName stem b.midxPacks).isSome then .ok b
    else if (byName stem b.packs).isSome then .ok b
    else match b.disk.openPack n with
      | .ok p => .ok { b with packs := b.packs ++ [p] }
      | .err e => if e = ENOTFOUND then .ok b else .err e
      | .ub => .ub

/-- `git_fs_path_direach` with it [src/libgit2/odb_pack.c:538-540] -/
def loadPacks : List Bytes → PackB → PackB × Res Unit
  | [], b => (b, .ok ())
  | n :: ns, b => match loadPack b n with
    | .ok b' => loadPacks ns b'
    | .err e => (b, .err e)
    | .ub => (b, .ub)

/-- putting a pack among others that are sorted: `packfile_sort__cb`, younger ones first [src/libgit2/odb_pack.c:205-232] -/
def insPack (p : Pk) : List Pk → List Pk
  | [] => [p]
  | q :: qs => if q.mtime < p.mtime then p :: q :: qs else q :: insPack p qs

/-- `git_vector_sort(&backend->packs)` [src/libgit2/odb_pack.c:543] (C40) -/
def sortPacks : List Pk → List Pk
  | [] => []
  | p :: ps => insPack p (sortPacks ps)

/-- `pack_backend__refresh`: src/libgit2/odb_pack.c:517-546 -/
def packRefresh (b : PackB) : PackB × Res Unit :=
  if !b.folder then (b, .ok ())
  else if !b.disk.isDir then (b, .err ENOTFOUND)
  else
    let r := loadPacks b.disk.listing (refreshMidx b)
    ({ r.1 with packs := sortPacks r.1.packs }, r.2)

/-- either of them -/
inductive Back where
  | loose : LooseB → Back
  | pack : PackB → Back

/-- their functions [src/libgit2/odb_loose.c:1193-1205, src/libgit2/odb_pack.c:905-917] -/
def backOps : Ops Back where
  canRefresh
    | .loose _ => false
    | .pack _ => true
  read
    | .loose b, id => (.loose b, looseRead b id)
    | .pack b, id => (.pack (packRead b id).1, (packRead b id).2)
  readPrefix
    | .loose b, key, len => (.loose b, looseReadPrefix b key len)
    | .pack b, key, len => (.pack (packReadPrefix b key len).1, (packReadPrefix b key len).2)
  readHeader
    | .loose b, id => (.loose b, looseHeader b id)
    | .pack b, id => (.pack (packHeader b id).1, (packHeader b id).2)
  has
    | .loose b, id => (.loose b, (locate b id).isSome)
    | .pack b, id => (.pack (entryFind b id).1, match (entryFind b id).2 with
      | .ok _ => true
      | _ => false)
  hasPrefix
    | .loose b, key, len => (.loose b, locateShort b key len)
    | .pack b, key, len => (.pack (packHasPrefix b key len).1, (packHasPrefix b key len).2)
  refresh
    | .loose b => (.loose b, .ok ())
    | .pack b => (.pack (packRefresh b).1, (packRefresh b).2)
  freshen
    | .loose b => some fun id => (.loose b, looseFreshen b id)
    | .pack b => some fun id => (.pack (packFreshen b id).1, (packFreshen b id).2)
  write
    | .loose b => some fun id o => (.loose (looseWrite b id o).1, (looseWrite b id o).2)
    | .pack _ => none
  stream
    | .loose b => some (if b.ro then .err (-1) else .ok ())
    | .pack _ => none
  finish
    | .loose b, id, o => (.loose (looseWrite b id o).1, (looseWrite b id o).2)
    | .pack b, _, _ => (.pack b, .ub)

end Verif.Odb
