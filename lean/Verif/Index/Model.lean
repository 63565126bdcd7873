import Verif.Cmp
import Verif.Sort.Model
/-! # Model of the in-memory index: `src/libgit2/index.c`

A case sensitive index (`ignore_case` false). Entries are kept in a vector (`entries`) and, by path and stage, in a hash map
(`entries_map`). The hash map is the finite map that C25 proves it to be. The C structures hold pointers to shared entries;
here both hold the value, and a change of an entry in place (`index_entry_cpy`) changes both.
The vector's "sorted" flag is not modelled: it is set when the index is created and kept by every function below, so the calls of
`git_vector_sort` do nothing (src/util/vector.c:137-140). The tree cache, `deleted`/`readers`, `dirty`, the name-length bits of
`flags` and the `UPTODATE` bit are not modelled. -/
namespace Verif.Index

/-- [include/git2/errors.h:32] -/
def ENOTFOUND : Int := -3
/-- [include/git2/errors.h:33] -/
def EEXISTS : Int := -4

/-- `git_index_entry`: include/git2/index.h:58-75. `stage` is `GIT_INDEX_ENTRY_STAGE` (two bits of `flags`), `rest` stands for the
stat fields and the remaining flags. -/
structure Entry where
  path : Bytes
  stage : Nat
  mode : Nat
  id : Bytes
  rest : List Nat
  deriving DecidableEq, Repr

/-- the vector and the map [src/libgit2/index.h:29-62] -/
structure St where
  entries : List Entry
  emap : Bytes → Nat → Option Entry

/-- an empty index: src/libgit2/index.c:389-446 -/
def init : St := ⟨[], fun _ _ => none⟩

/-- the byte at an offset of a NUL terminated string [no code: `s[i]`] -/
def charAt (s : Bytes) (i : Nat) : UInt8 := (s[i]?).getD 0

/-- `git_index_entry_cmp`: src/libgit2/index.c:201-213 -/
def entryCmp (a b : Entry) : Int :=
  let diff := bcmp a.path b.path
  if diff = 0 then (a.stage : Int) - b.stage else diff

/-- `git_index_entry_srch`: src/libgit2/index.c:136-159. `stage = none` is `GIT_INDEX_STAGE_ANY`. -/
def entrySrch (path : Bytes) (stage : Option Nat) (e : Entry) : Int :=
  let len := if path.length < e.path.length then path.length else e.path.length
  let cmp := bcmp (path.take len) (e.path.take len)
  if cmp ≠ 0 then cmp
  else if path.length < e.path.length then -1
  else if e.path.length < path.length then 1
  else match stage with
    | some s => (s : Int) - e.stage
    | none => 0

/-- `index_entry_srch_path`: src/libgit2/index.c:187-192 -/
def entrySrchPath (path : Bytes) (e : Entry) : Int := bcmp path e.path

/-- `index_find`: src/libgit2/index.c:354-362. The result is whether it was found, and the position. -/
def find (st : St) (path : Bytes) (stage : Option Nat) : Res (Bool × Nat) := Sort.bsearch (entrySrch path stage) st.entries

/-- remove a key from the map [git_index_entrymap_remove as used at src/libgit2/index.c:517, 1707] -/
def unmap (m : Bytes → Nat → Option Entry) (p : Bytes) (s : Nat) : Bytes → Nat → Option Entry :=
  fun p' s' => if p' = p ∧ s' = s then none else m p' s'

/-- put a key into the map [git_index_entrymap_put as used at src/libgit2/index.c:1421] -/
def putmap (m : Bytes → Nat → Option Entry) (e : Entry) : Bytes → Nat → Option Entry :=
  fun p' s' => if p' = e.path ∧ s' = e.stage then some e else m p' s'

/-- `index_remove_entry`: src/libgit2/index.c:510-533 -/
def removeEntry (st : St) (pos : Nat) : Res St :=
  match st.entries[pos]? with
  | none => .err ENOTFOUND
  | some e => .ok ⟨st.entries.eraseIdx pos, unmap st.emap e.path e.stage⟩

/-! ## File/directory collisions -/

/-- outcome of one round of the loop of `has_file_name` [src/libgit2/index.c:1111-1136] -/
inductive Next where
  | stop (st : St)
  | next (pos : Nat) (st : St)
  | refuse

/-- one round of the loop of `has_file_name`: src/libgit2/index.c:1119-1136 -/
def fileStep (path : Bytes) (stage : Nat) (replace : Bool) (pos : Nat) (st : St) (p : Entry) : Next :=
  if p.path.length ≤ path.length then .stop st
  else if bcmp path (p.path.take path.length) ≠ 0 then .stop st
  else if p.stage ≠ stage then .next (pos + 1) st
  else if charAt p.path path.length ≠ c!"/" then .next (pos + 1) st
  else if ¬ replace then .refuse
  else match removeEntry st pos with
    | .ok st => .next pos st
    | _ => .stop st

/-- `has_file_name`: src/libgit2/index.c:1111-1136 -/
def hasFileName (path : Bytes) (stage : Nat) (replace : Bool) : Nat → Nat → St → Res St
  | 0, _, _ => .ub
  | fuel + 1, pos, st =>
    match st.entries[pos]? with
    | none => .ok st
    | some p => match fileStep path stage replace pos st p with
      | .stop st => .ok st
      | .next pos st => hasFileName path stage replace fuel pos st
      | .refuse => .err (-1)

/-- the scan for an entry in the subdirectory `path[0..len)`: src/libgit2/index.c:1177-1187 -/
def subdirScan (path : Bytes) (len stage : Nat) : List Entry → Bool
  | [] => false
  | p :: ps =>
    if p.path.length ≤ len ∨ charAt p.path len ≠ c!"/" ∨ bcmp (p.path.take len) (path.take len) ≠ 0 then false
    else if p.stage = stage then true
    else subdirScan path len stage ps

/-- `has_dir_name`: src/libgit2/index.c:1142-1191. The argument is the offset of `slash` before it is decremented. -/
def hasDirName (path : Bytes) (stage : Nat) (replace : Bool) : Nat → St → Res St
  | 0, st => .ok st
  | i + 1, st =>
    if i = 0 then .ok st
    else if charAt path i ≠ c!"/" then hasDirName path stage replace i st
    else match find st (path.take i) (some stage) with
      | .err e => .err e
      | .ub => .ub
      | .ok (true, pos) =>
        if ¬ replace then .err (-1)
        else match removeEntry st pos with
          | .ok st => hasDirName path stage replace i st
          | _ => .ok st
      | .ok (false, pos) =>
        if subdirScan path i stage (st.entries.drop pos) then .ok st
        else hasDirName path stage replace i st

/-- `check_file_directory_collision`: src/libgit2/index.c:1193-1204 -/
def checkCollision (path : Bytes) (stage : Nat) (replace : Bool) (pos : Nat) (st : St) : Res St := do
  let st ← hasFileName path stage replace (2 * st.entries.length + 1) pos st
  hasDirName path stage replace path.length st

/-! ## Insertion -/

/-- the repository's answers: `git_path_is_valid` (index.c:944) and `git_object__is_valid` (index.c:1392) -/
structure Env where
  pathValid : Bytes → Bool
  objectValid : Bytes → Nat → Bool

/-- `git_index__create_mode`: src/libgit2/index.c:318-327, `GIT_PERMS_CANONICAL`: src/util/futils.h:282-283 -/
def createMode (mode : Nat) : Nat :=
  if mode &&& 0o170000 = 0o120000 then 0o120000
  else if mode &&& 0o170000 = 0o040000 ∨ mode &&& 0o170000 = 0o160000 then 0o160000
  else 0o100000 ||| (if mode &&& 0o100 ≠ 0 then 0o755 else 0o644)

/-- `valid_filemode` with `is_file_or_link`: src/libgit2/index.c:1461-1472 -/
def validFilemode (m : Nat) : Bool := m = 0o100644 ∨ m = 0o100755 ∨ m = 0o120000 ∨ m = 0o160000

/-- `git_vector_insert_sorted` with `index_no_dups`: src/util/vector.c:149-182, src/libgit2/index.c:1276-1283 -/
def insertSorted (st : St) (e : Entry) : Res St :=
  match Sort.bsearch (entryCmp e) st.entries with
  | .err x => .err x
  | .ub => .ub
  | .ok (true, _) => .err EEXISTS
  | .ok (false, pos) => .ok ⟨st.entries.insertIdx pos e, putmap st.emap e⟩

/-- overwriting the existing entry in place: src/libgit2/index.c:1405-1412, `index_entry_cpy`: :1068-1075 -/
def overwrite (st : St) (e : Entry) : St :=
  ⟨st.entries.map (fun x => if x.path = e.path ∧ x.stage = e.stage then e else x), putmap st.emap e⟩

/-- `existing_position` of `index_existing_and_best`: src/libgit2/index.c:1296-1308. When nothing was found it is **0**. -/
def existingPosition (found : Bool × Nat) : Nat := if found.1 then found.2 else 0

/-- the last part of `index_insert`: src/libgit2/index.c:1404-1428 -/
def place (st : St) (e : Entry) (replace existing : Bool) : Res St :=
  if existing then (if replace then .ok (overwrite st e) else .ok st) else insertSorted st e

/-- `index_insert` with `trust_path` and `trust_mode`, not `trust_id`: src/libgit2/index.c:1344-1434 -/
def insert (env : Env) (st : St) (e : Entry) (replace : Bool) : Res St := do
  let found ← find st e.path (some e.stage)
  let e := { e with mode := createMode e.mode }
  if e.mode &&& 0o160000 ≠ 0o160000 ∧ ¬ env.objectValid e.id e.mode then .err (-1)
  else do
    let st ← checkCollision e.path e.stage replace (existingPosition found) st
    place st e replace found.1

/-- `git_index_add`: src/libgit2/index.c:1677-1696 -/
def add (env : Env) (st : St) (e : Entry) : Res St :=
  if ¬ validFilemode e.mode then .err (-1)
  else if ¬ env.pathValid e.path then .err (-1)
  else insert env st e true

/-- `git_index_remove`: src/libgit2/index.c:1698-1718. (The map entry is removed first.) -/
def remove (st : St) (path : Bytes) (stage : Nat) : Res St :=
  match find st path (some stage) with
  | .err e => .err e
  | .ub => .ub
  | .ok (false, _) => .err ENOTFOUND
  | .ok (true, pos) => removeEntry ⟨st.entries, unmap st.emap path stage⟩ pos

/-- `git_index_clear`: src/libgit2/index.c:535-563; the loop removes the last entry until none is left -/
def clearLoop : Nat → St → Res St
  | 0, st => .ok st
  | k + 1, st => match removeEntry st k with
    | .ok st => clearLoop k st
    | .err e => .err e
    | .ub => .ub

/-- [src/libgit2/index.c:535-563] -/
def clear (st : St) : Res St := clearLoop st.entries.length ⟨st.entries, fun _ _ => none⟩

/-- `git_index_get_bypath`: src/libgit2/index.c:866-883 -/
def getBypath (st : St) (path : Bytes) (stage : Nat) : Option Entry := st.emap path stage

/-- `git_index_get_byindex`: src/libgit2/index.c:857-864 -/
def getByindex (st : St) (n : Nat) : Option Entry := st.entries[n]?

/-! ## Conflicts -/

/-- the walk back to the first entry of a path: src/libgit2/index.c:1793-1798 -/
def walkBack (st : St) (path : Bytes) : Nat → Nat
  | 0 => 0
  | pos + 1 => match st.entries[pos]? with
    | none => pos + 1
    | some prev => if bcmp prev.path path ≠ 0 then pos + 1 else walkBack st path pos

/-- `git_index_find`: src/libgit2/index.c:1776-1803 -/
def findPath (st : St) (path : Bytes) : Res Nat :=
  match Sort.bsearch (entrySrchPath path) st.entries with
  | .err e => .err e
  | .ub => .ub
  | .ok (false, _) => .err ENOTFOUND
  | .ok (true, pos) => .ok (walkBack st path pos)

/-- the three sides found by `index_conflict__get_byindex` [src/libgit2/index.c:1873-1922] -/
structure Sides where
  ancestor : Option Entry
  ours : Option Entry
  theirs : Option Entry
  deriving DecidableEq, Repr

/-- the `switch` on the stage: src/libgit2/index.c:1902-1917 -/
def Sides.set (s : Sides) (e : Entry) : Sides :=
  if e.stage = 3 then { s with theirs := some e }
  else if e.stage = 2 then { s with ours := some e }
  else if e.stage = 1 then { s with ancestor := some e }
  else s

/-- the loop of `index_conflict__get_byindex`: src/libgit2/index.c:1892-1919. Returns the sides and `len`. -/
def sidesLoop : List Entry → Option Bytes → Sides → Nat → Sides × Nat
  | [], _, s, len => (s, len)
  | e :: es, path, s, len =>
    if path.isSome ∧ path ≠ some e.path then (s, len)
    else sidesLoop es (some e.path) (s.set e) (if e.stage = 1 ∨ e.stage = 2 ∨ e.stage = 3 then len + 1 else len)

/-- `git_index_conflict_get`: src/libgit2/index.c:1924-1954 -/
def conflictGet (st : St) (path : Bytes) : Res Sides :=
  match findPath st path with
  | .err _ => .err ENOTFOUND
  | .ub => .ub
  | .ok pos =>
    let (s, len) := sidesLoop (st.entries.drop pos) none ⟨none, none, none⟩ 0
    if len = 0 then .err ENOTFOUND else .ok s

/-- the loop of `index_conflict_remove`: src/libgit2/index.c:1965-1979 -/
def conflictRemoveLoop (path : Option Bytes) : Nat → Nat → St → Res St
  | 0, _, _ => .ub
  | fuel + 1, pos, st =>
    match st.entries[pos]? with
    | none => .ok st
    | some e =>
      if path.isSome ∧ path ≠ some e.path then .ok st
      else if e.stage = 0 then conflictRemoveLoop path fuel (pos + 1) st
      else match removeEntry st pos with
        | .ok st => conflictRemoveLoop path fuel pos st
        | .err x => .err x
        | .ub => .ub

/-- `git_index_conflict_remove`: src/libgit2/index.c:1956-1988 -/
def conflictRemove (st : St) (path : Bytes) : Res St :=
  match findPath st path with
  | .err _ => .err ENOTFOUND
  | .ub => .ub
  | .ok pos => conflictRemoveLoop (some path) (st.entries.length + 1) pos st

/-- `git_index_conflict_cleanup`: src/libgit2/index.c:1990-1994 -/
def conflictCleanup (st : St) : Res St := conflictRemoveLoop none (st.entries.length + 1) 0 st

/-- `git_index_has_conflicts`: src/libgit2/index.c:1996-2009 -/
def hasConflicts (st : St) : Bool := st.entries.any (fun e => 0 < e.stage)

/-- removing the stage 0 entries, "not found" is ignored: src/libgit2/index.c:1834-1846. Returns the index and the error code. -/
def dropStage0 (st : St) : List (Option Entry) → Res (St × Int)
  | [] => .ok (st, 0)
  | none :: es => dropStage0 st es
  | some e :: es => match remove st e.path 0 with
    | .ok st => dropStage0 st es
    | .err x => if x = ENOTFOUND then dropStage0 { st with emap := unmap st.emap e.path 0 } es else .ok (st, x)
    | .ub => .ub

/-- adding the entries with their stages: src/libgit2/index.c:1849-1860; `i` is the stage. Returns the index and the error code: when
an entry is refused, the entries before it have already been added. -/
def addStages (env : Env) : Nat → St → List (Option Entry) → Res (St × Int)
  | _, st, [] => .ok (st, 0)
  | i, st, none :: es => addStages env (i + 1) st es
  | i, st, some e :: es => match insert env st { e with stage := i } true with
    | .ok st => addStages env (i + 1) st es
    | .err x => .ok (st, x)
    | .ub => .ub

/-- an entry is refused by a test [src/libgit2/index.c:1824-1832] -/
def bad (ok : Entry → Bool) : Option Entry → Bool
  | some e => ! ok e
  | none => false

/-- `git_index_conflict_add`: src/libgit2/index.c:1805-1871 -/
def conflictAdd (env : Env) (st : St) (ancestor ours theirs : Option Entry) : Res (St × Int) :=
  let es := [ancestor, ours, theirs]
  if es.any (bad (fun e => env.pathValid e.path)) then .ok (st, -1)
  else if es.any (bad (fun e => validFilemode e.mode)) then .ok (st, -1)
  else match dropStage0 st es with
    | .err x => .err x
    | .ub => .ub
    | .ok (st, c) => if c ≠ 0 then .ok (st, c) else addStages env 1 st es

/-- `git_index_remove_directory`, the loop: src/libgit2/index.c:1731-1745; `pfx` ends in a slash -/
def removeDirLoop (pfx : Bytes) (stage : Nat) : Nat → Nat → St → Res St
  | 0, _, _ => .ub
  | fuel + 1, pos, st =>
    match st.entries[pos]? with
    | none => .ok st
    | some e =>
      if ¬ (pfx <+: e.path) then .ok st
      else if e.stage ≠ stage then removeDirLoop pfx stage fuel (pos + 1) st
      else match removeEntry st pos with
        | .ok st => removeDirLoop pfx stage fuel pos st
        | .err x => .err x
        | .ub => .ub

/-- `git_index_remove_directory`: src/libgit2/index.c:1720-1749, `git_fs_path_to_dir`: src/util/fs_path.c:285-297 -/
def removeDirectory (st : St) (dir : Bytes) (stage : Nat) : Res St :=
  let pfx := if dir ≠ [] ∧ dir.getLast? ≠ some c!"/" then dir ++ b!"/" else dir
  match find st pfx none with
  | .err e => .err e
  | .ub => .ub
  | .ok (_, pos) => removeDirLoop pfx stage (st.entries.length + 1) pos st

end Verif.Index
