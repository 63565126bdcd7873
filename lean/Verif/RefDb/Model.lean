import Verif.FileBuf.Model
import Verif.RefPacked.Model
/-! # The file-system reference database as concurrent programs

`refdb_fs_backend__write`, `__delete` and `__compress` as sequences of system calls.  A reference `n` is the loose file at path `n`; the packed
file is at path "packed-refs".

Simplifications: one git directory (no worktrees, no namespaces); every operation reads the packed file afresh (the cache and the memory map
that are kept while the file stamp is unchanged are not modelled), and starts with `backend->sorted` unset; the checks of
`reference_path_available` and `git_path_is_valid`, which only refuse a name before anything is done, are left out; directories are not
modelled (`git_futils_rmdir_r`, `prune_refs`); the reflog is not modelled except that appending to it can fail. -/
namespace Verif.RefDb
open Verif.Conc Verif.FileBuf Verif.RefPacked

/-- GIT_EEXISTS, GIT_EMODIFIED: include/git2/errors.h:33,51. -/
def EEXISTS : Int := -4
/-- [include/git2/errors.h:51] -/
def EMODIFIED : Int := -15

/-- GIT_PACKEDREFS_FILE: src/libgit2/refs.h:31. -/
def packedRefs : Path := b!"packed-refs"

/-- GIT_SYMREF: src/libgit2/refs.h:30. -/
def symPrefix : Bytes := b!"ref: "

/-- The two types of references. [src/libgit2/refs.h:63-74] -/
inductive RefVal where
  | oid (id : Bytes)
  | sym (target : Bytes)
  deriving DecidableEq, Repr

/-- `git__isspace`: src/util/ctype_compat.h:43-46. -/
def isspace (c : UInt8) : Bool := c = 32 || c = 9 || c = 10 || c = 12 || c = 13 || c = 11

/-- `git_str_rtrim`: src/util/str.c:869-880. -/
def rtrim (b : Bytes) : Bytes := (b.reverse.dropWhile isspace).reverse

/-- `loose_parse_oid`: src/libgit2/refdb_fs.c:218-242. The buffer is followed by a NUL. -/
def looseParseOid (size : Nat) (b : Bytes) : Res Bytes :=
  if b.length < 2 * size then .err (-1)
  else
    match Oid.fromPrefix size (b ++ [0]) (2 * size), (b ++ [0])[2 * size]? with
    | .ok id, some x => if x = 0 ∨ isspace x then .ok id else .err (-1)
    | .ok _, none => .ub
    | .err _, _ => .err (-1)
    | .ub, _ => .ub

/-- The interpretation of a loose file in `loose_lookup`: src/libgit2/refdb_fs.c:435-451, with `loose_parse_symbolic` (381-401). -/
def looseParse (size : Nat) (b : Bytes) : Res RefVal :=
  if symPrefix.isPrefixOf b then
    if (rtrim b).length < symPrefix.length + 1 then .err (-1)
    else .ok (.sym (((rtrim b).drop symPrefix.length).takeWhile (· != 0)))
  else
    match looseParseOid size b with
    | .ok id => .ok (.oid id)
    | .err e => .err e
    | .ub => .ub

/-- `git_futils_readbuffer`: src/util/futils.c:221-301: the size is taken with `stat`, then the file is opened and that many bytes are read. -/
def readBuffer (p : Path) : P (Res Bytes) := do
  match ← sStat p with
  | .enoent => pure (.err ENOTFOUND)
  | .fail => pure (.err (-1))
  | .size n =>
    match ← sReadN p n with
    | .data b => pure (.ok b)
    | .enoent => pure (.err ENOTFOUND)
    | .fail => pure (.err (-1))

/-- `packed_map_check` and `packed_lookup`: src/libgit2/refdb_fs.c:511-585, 684-762. -/
def lookupPacked (size : Nat) (n : Path) : P (Res RefVal) := do
  match ← sReadAll packedRefs with
  | .enoent => pure (.err ENOTFOUND)
  | .fail => pure (.err (-1))
  | .data b =>
    match lookup size b n false with
    | .ok (id, _) => pure (.ok (.oid id))
    | .err e => pure (.err e)
    | .ub => pure .ub

/-- `refdb_fs_backend__lookup`: src/libgit2/refdb_fs.c:764-784. -/
def lookupRef (size : Nat) (n : Path) : P (Res RefVal) := do
  match ← readBuffer n with
  | .ok b =>
    match looseParse size b with
    | .err e => if e = ENOTFOUND then lookupPacked size n else pure (.err e)
    | r => pure r
  | .err e => if e = ENOTFOUND then lookupPacked size n else pure (.err e)
  | .ub => pure .ub

/-- the comparison in `cmp_old_ref` once the current value is known: src/libgit2/refdb_fs.c:1525-1546; `ok true` is `*cmp == 0` -/
def cmpOld (size : Nat) (cur : Res RefVal) (oldId oldTarget : Option Bytes) : Res Bool :=
  match cur with
  | .err e => if e = ENOTFOUND ∧ oldId = some (List.replicate size 0) then .ok true else .err e
  | .ub => .ub
  | .ok (.oid x) =>
    match oldId, oldTarget with
    | _, some _ => .ok false
    | some y, none => .ok (decide (y = x))
    | none, none => .ok true
  | .ok (.sym t) =>
    match oldId, oldTarget with
    | some _, _ => .ok false
    | none, some u => .ok (decide (u = t))
    | none, none => .ok true

/-- `cmp_old_ref`: src/libgit2/refdb_fs.c:1514-1551. -/
def cmpOldRef (size : Nat) (n : Path) (oldId oldTarget : Option Bytes) : P (Res Bool) :=
  match oldId, oldTarget with
  | none, none => pure (.ok true)
  | _, _ => do
    let cur ← lookupRef size n
    pure (cmpOld size cur oldId oldTarget)

/-- One call of `refdb_fs_backend__write`. `reflogOk` says whether the reflog could be appended to. [src/libgit2/refdb_fs.c:1594-1617] -/
structure WriteJob where
  name : Path
  value : RefVal
  oldId : Option Bytes
  oldTarget : Option Bytes
  reflogOk : Bool
  opts : Opts

/-- [src/libgit2/refs.c:340-348] -/
def RefVal.id? : RefVal → Option Bytes
  | .oid x => some x
  | .sym _ => none

/-- [src/libgit2/refs.c:360-368] -/
def RefVal.target? : RefVal → Option Bytes
  | .oid _ => none
  | .sym t => some t

/-- the text written by `loose_commit`: src/libgit2/refdb_fs.c:1193-1200 -/
def looseText (size : Nat) : RefVal → Res Bytes
  | .oid x => do
    let h ← Oid.fmt size x
    .ok (h ++ [c!"\n"])
  | .sym t => .ok (symPrefix ++ t ++ [c!"\n"])

/-- `loose_commit`: src/libgit2/refdb_fs.c:1188-1205; the result of the printing is not looked at. -/
def looseCommit (size : Nat) (f : FB) (v : RefVal) : P Int :=
  match looseText size v with
  | .ok t => do
    let (_, f) ← fbPrintf f t
    fbCommit f
  | _ => pure (-1)

/-- the exit `on_error` of `refdb_fs_backend__write_tail`: src/libgit2/refdb_fs.c:1675-1677 -/
def bail (f : FB) (e : Int) : P Int := do
  cleanup f
  pure e

/-- after the old value has been checked: src/libgit2/refdb_fs.c:1645-1673 -/
def writeNew (size : Nat) (j : WriteJob) (f : FB) : P Int := do
  let c ← cmpOldRef size j.name j.value.id? j.value.target?
  match c with
  | .ok true => do
    sEvent (.same j.name)
    bail f 0
  | .ok false => if j.reflogOk then looseCommit size f j.value else bail f (-1)
  | .err e => if e = ENOTFOUND then (if j.reflogOk then looseCommit size f j.value else bail f (-1)) else bail f e
  | .ub => bail f (-1)

/-- `refdb_fs_backend__write_tail`: src/libgit2/refdb_fs.c:1619-1678. -/
def writeTail (size : Nat) (j : WriteJob) (f : FB) : P Int := do
  let c ← cmpOldRef size j.name j.oldId j.oldTarget
  match c with
  | .ok true => writeNew size j f
  | .ok false => bail f EMODIFIED
  | .err e => bail f e
  | .ub => bail f (-1)

/-- `refdb_fs_backend__write`: src/libgit2/refdb_fs.c:1594-1617, with `loose_lock` (1146-1186). -/
def WriteJob.run (size : Nat) (j : WriteJob) : P Int := do
  let (r, f) ← fbOpen j.name j.opts
  if r < 0 then pure r else writeTail size j f

/-! ## Packing -/

/-- An entry of the cache and its flag PACKREF_WAS_LOOSE. [src/libgit2/refdb_fs.c:46-51] -/
abbrev Ent := PackRef × Bool

/-- `packed_reload`: src/libgit2/refdb_fs.c:113-216. -/
def reload (size : Nat) : P (Res (List Ent)) := do
  match ← sReadAll packedRefs with
  | .enoent => pure (.ok [])
  | .fail => pure (.err (-1))
  | .data b =>
    match packedReload size b with
    | .ok c => pure (.ok (c.map (fun r => (r, false))))
    | .err e => pure (.err e)
    | .ub => pure .ub

/-- the store of `loose_lookup_to_packfile`: src/libgit2/refdb_fs.c:279-285: an existing entry is overwritten, flags and all -/
def upsertLoose (c : List Ent) (name oid : Bytes) : List Ent :=
  match c with
  | [] => [(⟨name, oid, none⟩, true)]
  | r :: rs => if r.1.name = name then (⟨name, oid, none⟩, true) :: rs else r :: upsertLoose rs name oid

/-- the test of `_dirent_loose_load` for lock files: src/libgit2/refdb_fs.c:300 -/
def isLockName (n : Path) : Bool := (b!".lock").isSuffixOf n

/-- the interpretation of a loose file in `loose_lookup_to_packfile`: src/libgit2/refdb_fs.c:269-288 -/
def addLoose (size : Nat) (c : List Ent) (n : Path) (b : Bytes) : Res (List Ent) :=
  if symPrefix.isPrefixOf b then .ok c
  else
    match looseParseOid size b with
    | .ok id => .ok (upsertLoose c n id)
    | .err e => .err e
    | .ub => .ub

/-- `packed_loadloose`: src/libgit2/refdb_fs.c:244-345; `names` are the names that the directory listing produces. -/
def loadLoose (size : Nat) : List Path → List Ent → P (Res (List Ent))
  | [], c => pure (.ok c)
  | n :: ns, c =>
    if isLockName n then loadLoose size ns c
    else do
      match ← readBuffer n with
      | .ok b =>
        match addLoose size c n b with
        | .ok c' => loadLoose size ns c'
        | .err e => pure (.err e)
        | .ub => pure .ub
      | _ => loadLoose size ns c

/-- the order of the entries of the cache: `git_sortedcache_entry` sorts the vector with `packref_cmp`, src/util/sortedcache.c:318-325,
src/libgit2/refdb_fs.c:107-111 -/
def sortCache (c : List Ent) : List Ent := c.foldr insertSorted []
where
  /-- insertion into a sorted list; which sorting algorithm is used does not matter as the names are distinct -/
  insertSorted (a : Ent) : List Ent → List Ent
    | [] => [a]
    | b :: bs => if a.1.name ≤ b.1.name then a :: b :: bs else b :: insertSorted a bs

/-- `packed_find_peel`: src/libgit2/refdb_fs.c:1267-1303. `peel` is the answer of the object database: no such object, not a tag, or a tag of
that target; PACKREF_CANNOT_PEEL counts as "not a tag". -/
def findPeel (peel : Bytes → Bytes → Option (Option Bytes)) (r : PackRef) : Option PackRef :=
  match r.peel with
  | some _ => some r
  | none =>
    match peel r.name r.oid with
    | none => none
    | some p => some { r with peel := p }

/-- the loop of `packed_write`: src/libgit2/refdb_fs.c:1446-1458; `none` is the jump to `fail` -/
def writeEntries (size : Nat) (peel : Bytes → Bytes → Option (Option Bytes)) : List Ent → FB → P (Bool × FB)
  | [], f => pure (true, f)
  | r :: rs, f =>
    match findPeel peel r.1 with
    | none => pure (false, f)
    | some r' =>
      match writeRef size r' with
      | .ok t => do
        let (e, f) ← fbPrintf f t
        if e < 0 then pure (false, f) else writeEntries size peel rs f
      | _ => pure (false, f)

/-- `git_filebuf_cleanup(&lock)` of a structure that may be unused [src/util/filebuf.c:101-130] -/
def cleanupOpt : Option FB → P Unit
  | none => pure ()
  | some f => cleanup f

/-- what `packed_remove_loose` does once it has the lock: src/libgit2/refdb_fs.c:1374-1400. `buf` is the content of `ref_content`: when
reading fails with anything but GIT_ENOTFOUND, the content of the previous reference is still there. Returns the new `ref_content`. -/
def removeOne (size : Nat) (r : PackRef) (buf : Bytes) : P Bytes := do
  let c ← readBuffer r.name
  match c with
  | .err e =>
    if e = ENOTFOUND then pure buf
    else do
      removeChecked size r buf
  | .ok b => removeChecked size r b
  | .ub => pure buf
where
  /-- src/libgit2/refdb_fs.c:1379-1400 -/
  removeChecked (size : Nat) (r : PackRef) (buf : Bytes) : P Bytes :=
    if symPrefix.isPrefixOf buf then pure buf
    else
      match looseParseOid size buf with
      | .ok id =>
        if id = r.oid then do
          let _ ← sUnlink r.name
          pure buf
        else pure buf
      | _ => pure buf

/-- `packed_remove_loose`: src/libgit2/refdb_fs.c:1348-1407. -/
def removeLoose (size : Nat) (o : Opts) : List Ent → Option FB → Bytes → P Int
  | [], lock, _ => do
    cleanupOpt lock
    pure 0
  | (r, wasLoose) :: rs, lock, buf =>
    if wasLoose then do
      cleanupOpt lock
      let (e, f) ← fbOpen r.name o
      if e = EEXISTS ∨ e = ENOTFOUND then removeLoose size o rs none buf
      else if e < 0 then pure e
      else do
        let buf ← removeOne size r buf
        removeLoose size o rs (some f) buf
    else removeLoose size o rs lock buf

/-- `packed_write`: src/libgit2/refdb_fs.c:1412-1481. -/
def packedWrite (size : Nat) (o : Opts) (peel : Bytes → Bytes → Option (Option Bytes)) (c : List Ent) : P Int := do
  let (r, f) ← fbOpen packedRefs o
  if r < 0 then pure r
  else do
    let (e, f) ← fbPrintf f (packedHeader ++ [c!"\n"])
    if e < 0 then bail f e
    else do
      let (ok, f) ← writeEntries size peel (sortCache c) f
      if ok then do
        let e ← fbCommit f
        if e < 0 then pure e else removeLoose size o (sortCache c) none []
      else bail f (-1)

/-- One call of `refdb_fs_backend__compress`: `names` are the loose names the directory listing gives, in any order, complete or not. [src/libgit2/refdb_fs.c:1897-1910] -/
structure PackJob where
  names : List Path
  peel : Bytes → Bytes → Option (Option Bytes)
  opts : Opts

/-- `refdb_fs_backend__compress`: src/libgit2/refdb_fs.c:1897-1910. -/
def PackJob.run (size : Nat) (j : PackJob) : P Int := do
  match ← reload size with
  | .ok c =>
    match ← loadLoose size j.names c with
    | .ok c => packedWrite size j.opts j.peel c
    | .err e => pure e
    | .ub => pure (-1)
  | .err e => pure e
  | .ub => pure (-1)

/-! ## Deleting -/

/-- One call of `refdb_fs_backend__delete`. [src/libgit2/refdb_fs.c:1732-1753] -/
structure DeleteJob where
  name : Path
  oldId : Option Bytes
  oldTarget : Option Bytes
  peel : Bytes → Bytes → Option (Option Bytes)
  opts : Opts

/-- `packed_delete`: src/libgit2/refdb_fs.c:1483-1510. -/
def packedDelete (size : Nat) (j : DeleteJob) : P Int := do
  match ← reload size with
  | .ok c =>
    if c.any (fun r => r.1.name = j.name) then packedWrite size j.opts j.peel (c.filter (fun r => !(r.1.name = j.name)))
    else pure 0
  | .err e => pure e
  | .ub => pure (-1)

/-- the second half of `refdb_fs_backend__delete_tail`: src/libgit2/refdb_fs.c:1812-1829. `packed_delete` has returned 0 (it never returns
GIT_ENOTFOUND), so a missing loose file is not an error. -/
def deleteLoose (j : DeleteJob) (f : FB) : P Int := do
  match ← sUnlink j.name with
  | .fail => bail f (-1)
  | _ => do
    sEvent (.gone j.name)
    bail f 0

/-- `refdb_fs_backend__delete_tail` after the comparison: src/libgit2/refdb_fs.c:1806-1829 -/
def deleteBoth (size : Nat) (j : DeleteJob) (f : FB) : P Int := do
  let e ← packedDelete size j
  if e < 0 then bail f e else deleteLoose j f

/-- `refdb_fs_backend__delete`: src/libgit2/refdb_fs.c:1732-1753, 1774-1830; the removal of the reflog is not modelled. -/
def DeleteJob.run (size : Nat) (j : DeleteJob) : P Int := do
  let (r, f) ← fbOpen j.name j.opts
  if r < 0 then pure r
  else do
    let c ← cmpOldRef size j.name j.oldId j.oldTarget
    match c with
    | .ok true => deleteBoth size j f
    | .ok false => bail f EMODIFIED
    | .err e => bail f e
    | .ub => bail f (-1)

/-! ## The system -/

/-- what a process does [src/libgit2/refdb_fs.c:764, 1594, 1732, 1897 (the entry points)] -/
inductive Task where
  | write (j : WriteJob)
  | pack (j : PackJob)
  | delete (j : DeleteJob)
  | read (n : Path)

/-- what a process returns: an error code, or the result of a lookup [src/libgit2/refdb_fs.c:764, 1594, 1732, 1897 (their results)] -/
inductive Outcome where
  | code (e : Int)
  | found (r : Res RefVal)

/-- [src/libgit2/refdb_fs.c:764, 1594, 1732, 1897 (the entry points)] -/
def Task.run (size : Nat) : Task → P Outcome
  | .write j => do
    let r ← j.run size
    pure (.code r)
  | .pack j => do
    let r ← j.run size
    pure (.code r)
  | .delete j => do
    let r ← j.run size
    pure (.code r)
  | .read n => do
    let r ← lookupRef size n
    pure (.found r)

end Verif.RefDb
