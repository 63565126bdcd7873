import Verif.Base
import Verif.Cmp
import Verif.Oid.Model
/-! # The packed-refs file: lookup, parsing, writing

A pointer into the mapped file is an offset into the byte list `b`.  Reading outside the file is `ub`.
`size` is the raw size of object ids (20 in the default build). -/
namespace Verif.RefPacked

/-- GIT_ENOTFOUND: include/git2/errors.h:32. -/
def ENOTFOUND : Int := -3

/-- `memchr(b + pos, c, n)`: the offset of the first `c` among the `n` bytes from `pos`. [used at src/libgit2/refdb_fs.c:480, 614, 645, 704, 730] -/
def memchr (b : Bytes) (c : UInt8) : Nat → Nat → Res (Option Nat)
  | _, 0 => .ok none
  | pos, n + 1 =>
    match b[pos]? with
    | none => .ub
    | some x => if x = c then .ok (some pos) else memchr b c (pos + 1) n

/-- `git__memrchr(b + lo, c, n)`: src/util/util.h:95-108; the offset of the last `c` among the `n` bytes from `lo`. -/
def memrchr (b : Bytes) (c : UInt8) (lo : Nat) : Nat → Res (Option Nat)
  | 0 => .ok none
  | n + 1 =>
    match b[lo + n]? with
    | none => .ub
    | some x => if x = c then .ok (some (lo + n)) else memrchr b c lo n

/-- `start_of_record(buf, p)`: src/libgit2/refdb_fs.c:589-603; the loop runs at most `fuel` times (`ub` beyond, which
C20_lookup_safe excludes). -/
def startOfRecord (b : Bytes) (buf : Nat) : Nat → Nat → Res Nat
  | 0, _ => .ub
  | fuel + 1, p => do
    match ← memrchr b c!"\n" buf (p - buf) with
    | none => .ok buf
    | some nl =>
      match b[nl + 1]? with
      | none => .ub
      | some x =>
        if x = c!"^" ∧ buf < nl then startOfRecord b buf fuel (nl - 1)
        else .ok (nl + 1)

/-- `end_of_record(p, end)`: src/libgit2/refdb_fs.c:610-624. -/
def endOfRecord (b : Bytes) (stop : Nat) : Nat → Nat → Res Nat
  | 0, _ => .ub
  | fuel + 1, p => do
    match ← memchr b c!"\n" p (stop - p) with
    | none => .ok stop
    | some nl =>
      if nl + 1 < stop then
        match b[nl + 1]? with
        | none => .ub
        | some x => if x = c!"^" then endOfRecord b stop fuel (nl + 2) else .ok (nl + 1)
      else .ok (nl + 1)

/-- `cmp_record_to_refname(rec, data_end, ref_name)`: src/libgit2/refdb_fs.c:626-654.  `avail` is the number of bytes from
`rec` to the end of the file. -/
def cmpRecord (size : Nat) (b : Bytes) (rec avail : Nat) (name : Bytes) : Res Int :=
  if avail < 2 * size + 3 then .ok (-1)
  else do
    let rec' := rec + (2 * size + 1)
    let avail' := avail - (2 * size + 1)
    let nl ← memchr b c!"\n" rec' avail'
    let dlen := match nl with
      | some e => e - rec'
      | none => avail'
    let head ← slice b rec' (min name.length dlen)
    let c := bcmp head (name.take (min name.length dlen))
    if c = 0 ∧ dlen ≠ name.length then .ok (if dlen > name.length then 1 else -1)
    else .ok c

/-- What `packed_lookup` does with the record it found, at offset `rec`: src/libgit2/refdb_fs.c:722-754. -/
def readRecord (size : Nat) (b : Bytes) (rec : Nat) : Res (Bytes × Option Bytes) :=
  if b.length - rec < 2 * size then .err (-1)
  else do
    let oid ← Oid.fromPrefix size (b.drop rec) (2 * size)
    let rec1 := rec + (2 * size + 1)
    match ← memchr b c!"\n" rec1 (b.length - rec1) with
    | none => .err (-1)
    | some eol =>
      if eol + 1 < b.length then
        match b[eol + 1]? with
        | none => .ub
        | some x =>
          if x = c!"^" then
            if b.length - (eol + 2) < 2 * size then .err (-1)
            else do
              let peel ← Oid.fromPrefix size (b.drop (eol + 2)) (2 * size)
              .ok (oid, some peel)
          else .ok (oid, none)
      else .ok (oid, none)

/-- The search loop of `packed_lookup`: src/libgit2/refdb_fs.c:709-757. -/
def searchLoop (size : Nat) (b : Bytes) (name : Bytes) : Nat → Nat → Nat → Res (Bytes × Option Bytes)
  | 0, _, _ => .ub
  | fuel + 1, left, right =>
    if left < right then do
      let mid := left + (right - left) / 2
      let rec ← startOfRecord b left (b.length + 1) mid
      let c ← cmpRecord size b rec (b.length - rec) name
      if c < 0 then do
        let left' ← endOfRecord b right (b.length + 1) mid
        searchLoop size b name fuel left' right
      else if 0 < c then searchLoop size b name fuel left rec
      else readRecord size b rec
    else .err ENOTFOUND

/-- Skipping the header lines: src/libgit2/refdb_fs.c:703-707. -/
def skipHeader (b : Bytes) : Nat → Nat → Res Nat
  | 0, _ => .ub
  | fuel + 1, left =>
    if left < b.length then
      match b[left]? with
      | none => .ub
      | some x =>
        if x = c!"#" then do
          match ← memchr b c!"\n" left (b.length - left) with
          | none => .err (-1)
          | some nl => skipHeader b fuel (nl + 1)
        else .ok left
    else .ok left

/-- `packed_lookup` on a file flagged sorted: src/libgit2/refdb_fs.c:699-762.  `packed_map_check` (mapping the file, checking
its time stamp) is not modelled: `b` is the current content. -/
def packedLookup (size : Nat) (b : Bytes) (name : Bytes) : Res (Bytes × Option Bytes) := do
  let left ← skipHeader b (b.length + 1) 0
  searchLoop size b name (b.length + 1) left b.length

/-! ## Parsing the whole file -/

/-- `struct packref`: src/libgit2/refdb_fs.c:43-48 (`peel` is `none` without PACKREF_HAS_PEEL; PACKREF_CANNOT_PEEL is dropped). -/
structure PackRef where
  name : Bytes
  oid : Bytes
  peel : Option Bytes
  deriving DecidableEq, Repr

/-- `git_sortedcache_upsert` followed by the stores of `packed_reload`: src/util/sortedcache.c:262-301 and
src/libgit2/refdb_fs.c:175-201: an existing item is overwritten but keeps an old peeled id when the new record has none. The
items keep insertion order here; they are sorted when indexed (src/util/sortedcache.c:318-325). -/
def upsert (cache : List PackRef) (name oid : Bytes) (peel : Option Bytes) : List PackRef :=
  match cache with
  | [] => [⟨name, oid, peel⟩]
  | r :: rs => if r.name = name then ⟨name, oid, peel.or r.peel⟩ :: rs else r :: upsert rs name oid peel

/-- `strchr(b + pos, '\n')` on the NUL-terminated buffer: the search stops at the end or at a NUL byte. [used at src/libgit2/refdb_fs.c:152, 169, 189] -/
def strchrNl (b : Bytes) (pos : Nat) : Option Nat :=
  let line := (b.drop pos).takeWhile (fun x => x != c!"\n" && x != 0)
  match b[pos + line.length]? with
  | some x => if x = c!"\n" then some (pos + line.length) else none
  | none => none

/-- `git_oid_from_prefix` on the NUL-terminated buffer (the terminator is not a hex digit, so nothing beyond it is read). [used at src/libgit2/refdb_fs.c:163, 184, 726, 742] -/
def oidAt (size : Nat) (b : Bytes) (pos : Nat) : Res Bytes := Oid.fromPrefix size (b.drop pos ++ [0]) (2 * size)

/-- The optional line `^<oid>` after a record: src/libgit2/refdb_fs.c:183-196. Returns the peeled id and the new `scan`. -/
def reloadPeel (size : Nat) (b : Bytes) (scan : Nat) : Res (Option Bytes × Nat) :=
  if b[scan]? = some c!"^" then do
    let peel ← oidAt size b (scan + 1)
    let scan' := scan + 2 * size + 1
    if scan' < b.length then
      match strchrNl b scan' with
      | none => .err (-1)
      | some eol => .ok (some peel, eol + 1)
    else .ok (some peel, scan')
  else .ok (none, scan)

/-- the record name between `scan` and the end of line, without a trailing CR: src/libgit2/refdb_fs.c:171-175 -/
def lineName (b : Bytes) (scan eol : Nat) : Bytes :=
  let l := (b.drop scan).take (eol - scan)
  if l.getLast? = some c!"\r" then l.dropLast else l

/-- The record loop of `packed_reload`: src/libgit2/refdb_fs.c:157-201. -/
def reloadLoop (size : Nat) (b : Bytes) : Nat → Nat → List PackRef → Res (List PackRef)
  | 0, _, _ => .ub
  | fuel + 1, scan, cache =>
    if scan < b.length then do
      let oid ← oidAt size b scan
      if b[scan + 2 * size]? = some c!" " then
        match strchrNl b (scan + 2 * size + 1) with
        | none => .err (-1)
        | some eol => do
          let name := lineName b (scan + 2 * size + 1) eol
          let (peel, scan') ← reloadPeel size b (eol + 1)
          reloadLoop size b fuel scan' (upsert cache name oid peel)
      else .err (-1)
    else .ok cache

/-- The comment lines of `packed_reload`: src/libgit2/refdb_fs.c:151-155. -/
def reloadHeader (b : Bytes) : Nat → Nat → Res Nat
  | 0, _ => .ub
  | fuel + 1, scan =>
    if b[scan]? = some c!"#" then
      match strchrNl b scan with
      | none => .err (-1)
      | some eol => reloadHeader b fuel (eol + 1)
    else .ok scan

/-- "# pack-refs with:": src/libgit2/refdb_fs.c:468. -/
def traitsHeader : Bytes := b!"# pack-refs with:"

/-- `git__memmem(hay, needle) != NULL`: src/util/util.c (the first occurrence; only its existence matters). -/
def hasInfix (needle : Bytes) : Bytes → Bool
  | [] => needle.isEmpty
  | x :: xs => needle.isPrefixOf (x :: xs) || hasInfix needle xs

/-- `packed_set_peeling_mode`: src/libgit2/refdb_fs.c:463-495. Returns whether the file is flagged sorted and the offset after
the header line; without that header the flag of the previous file is kept, modelled by the argument. -/
def setPeelingMode (b : Bytes) (wasSorted : Bool) : Res (Bool × Nat) :=
  if traitsHeader.isPrefixOf b then
    let rest := b.drop traitsHeader.length
    if c!"\n" ∈ rest then
      let line := rest.takeWhile (· != c!"\n")
      .ok (hasInfix (b!" sorted ") line, traitsHeader.length + line.length + 1)
    else .err (-1)
  else .ok (wasSorted, 0)

/-- `packed_reload` on a changed file: src/libgit2/refdb_fs.c:113-216. -/
def packedReload (size : Nat) (b : Bytes) : Res (List PackRef) := do
  let (_, scan) ← setPeelingMode b false
  let scan ← reloadHeader b (b.length + 1) scan
  reloadLoop size b (b.length + 1) scan []

/-- `packed_unsorted_lookup`: src/libgit2/refdb_fs.c:656-682 (a missing peeled id is `none` here; the code hands over a zero id). -/
def unsortedLookup (size : Nat) (b : Bytes) (name : Bytes) : Res (Bytes × Option Bytes) := do
  let cache ← packedReload size b
  match cache.find? (fun r => r.name = name) with
  | some r => .ok (r.oid, r.peel)
  | none => .err ENOTFOUND

/-- `packed_lookup` including the choice between the two searches: src/libgit2/refdb_fs.c:684-762. An empty file is not
mapped (line 545) and leaves `sorted` as it was. -/
def lookup (size : Nat) (b : Bytes) (name : Bytes) (wasSorted : Bool) : Res (Bytes × Option Bytes) :=
  match setPeelingMode b wasSorted with
  | .ok (true, _) => packedLookup size b name
  | _ => unsortedLookup size b name

/-! ## Writing -/

/-- `packed_write_ref`: src/libgit2/refdb_fs.c:1308-1335. -/
def writeRef (size : Nat) (r : PackRef) : Res Bytes := do
  let oid ← Oid.fmt size r.oid
  match r.peel with
  | some p => do
    let peel ← Oid.fmt size p
    .ok (oid ++ c!" " :: r.name ++ c!"\n" :: c!"^" :: peel ++ [c!"\n"])
  | none => .ok (oid ++ c!" " :: r.name ++ [c!"\n"])

/-- GIT_PACKEDREFS_HEADER: src/libgit2/refs.h:32. -/
def packedHeader : Bytes := b!"# pack-refs with: peeled fully-peeled sorted "

/-- [src/libgit2/refdb_fs.c:1445-1456] -/
def writeRefs (size : Nat) : List PackRef → Res Bytes
  | [] => .ok []
  | r :: rs => do
    let x ← writeRef size r
    let y ← writeRefs size rs
    .ok (x ++ y)

/-- The content `packed_write` gives the file: src/libgit2/refdb_fs.c:1442-1458, for the cache entries in their order (peeled
ids already found). -/
def packedContent (size : Nat) (refs : List PackRef) : Res Bytes := do
  let body ← writeRefs size refs
  .ok (packedHeader ++ c!"\n" :: body)

end Verif.RefPacked
