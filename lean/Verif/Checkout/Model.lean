import Verif.Cmp
import Verif.PathValid.Model
/-! # Checkout: what is done with each path (src/libgit2/checkout.c)

The strategy flags are a structure of booleans; an action is the set of its bits. Modelled with `core.ignorecase` off (paths are compared
with `strcmp`). The work directory is the list of the items its iterator would give with every directory entered, in its order: a directory
comes before what is in it and its path ends in a slash. Entering a directory goes to the next item, advancing over it drops what is below it.
What the code asks of the file system, the index and the submodules about an item are fields of the item. -/
namespace Verif.Checkout

/-- `GIT_FILEMODE_*`: include/git2/types.h -/
def modeTree : Nat := 0o040000
/-- [include/git2/types.h:239] -/
def modeBlob : Nat := 0o100644
/-- [include/git2/types.h:240] -/
def modeExec : Nat := 0o100755
/-- [include/git2/types.h:241] -/
def modeLink : Nat := 0o120000
/-- [include/git2/types.h:242] -/
def modeCommit : Nat := 0o160000

/-- the strategy: include/git2/checkout.h:113-206 -/
structure Strategy where
  none : Bool := false
  force : Bool := false
  recreateMissing : Bool := false
  updateOnly : Bool := false
  allowConflicts : Bool := false
  removeUntracked : Bool := false
  removeIgnored : Bool := false
  dontOverwriteIgnored : Bool := false
  deriving DecidableEq, Repr

/-- the bits of an action: src/libgit2/checkout.c:38-48 -/
structure Action where
  remove : Bool := false
  updateBlob : Bool := false
  updateSubmodule : Bool := false
  conflict : Bool := false
  deriving DecidableEq, Repr

/-- [src/libgit2/checkout.c:40] -/
def Action.REMOVE : Action := { remove := true }
/-- [src/libgit2/checkout.c:41] -/
def Action.UPDATE_BLOB : Action := { updateBlob := true }
/-- [src/libgit2/checkout.c:43] -/
def Action.CONFLICT : Action := { conflict := true }
/-- [src/libgit2/checkout.c:47-48] -/
def Action.REMOVE_AND_UPDATE : Action := { remove := true, updateBlob := true }
/-- [src/libgit2/checkout.c:39] -/
def Action.NONE : Action := {}

/-- one side of a delta: include/git2/diff.h (`git_diff_file`); ids are numbers -/
structure DFile where
  id : Nat
  mode : Nat
  size : Nat
  deriving DecidableEq, Repr

/-- `git_delta_t`; the other ones do not occur between trees (`default` in the switches) [include/git2/diff.h:224-236] -/
inductive Status | unmodified | added | deleted | modified | typechange | other
  deriving DecidableEq, Repr

/-- a delta from the baseline to the target; both sides have the same path (src/libgit2/diff_generate.c:47-53) -/
structure Delta where
  path : Bytes
  status : Status
  old : DFile
  new : DFile
  deriving DecidableEq, Repr

/-- the index entry of a path with its cached file data; `newer`: `git_index_entry_newer_than_index` [include/git2/index.h:58-75 (git_index_entry), used at src/libgit2/checkout.c:205-221] -/
structure IdxEntry where
  id : Nat
  mode : Nat
  mtime : Nat
  size : Nat
  newer : Bool
  deriving DecidableEq, Repr

/-- what `git_iterator_advance_over` says: src/libgit2/iterator.c:1777-1870 -/
inductive Over | normal | ignored | empty | filtered deriving DecidableEq, Repr

/-- an item of the work directory [include/git2/index.h:58-75 (git_index_entry)] -/
structure Wd where
  path : Bytes
  mode : Nat
  mtime : Nat := 0
  size : Nat := 0
  /-- the id of the content as it would be stored; `none`: it cannot be read -/
  hash : Option Nat := none
  /-- `git_iterator_current_is_ignored` -/
  ignored : Bool := false
  /-- the pathspec matches -/
  matched : Bool := true
  /-- the index has an entry at stage 0 -/
  index : Option IdxEntry := none
  /-- the index has an entry at some stage; for a directory: the next entry is inside of it -/
  tracked : Bool := false
  over : Over := .normal
  /-- a directory with a `.git` inside -/
  dotGit : Bool := false
  /-- `git_fs_path_is_empty_dir` -/
  emptyDir : Bool := false
  /-- a submodule can be looked up, is dirty (or its status fails), its id, is known from the config only -/
  smFound : Bool := false
  smDirty : Bool := false
  smId : Option Nat := none
  smConfigOnly : Bool := false
  deriving DecidableEq, Repr

/-- `git_checkout_notify_t` [include/git2/checkout.h:224-255] -/
inductive Why | none | conflict | dirty | updated | untracked | ignored deriving DecidableEq, Repr

/-- the options that matter here: the strategy, `core.filemode`, the notification callback (with the flags that select it; what is not
selected returns 0), and the repository's protection settings [src/libgit2/checkout.c:51-77] -/
structure Data where
  strategy : Strategy
  respectFilemode : Bool
  notify : Why → Option Delta → Option Wd → Int
  repo : Option PathValid.Protect

/-- `checkout_notify`: src/libgit2/checkout.c:91-149; `NOTIFY_NONE` is never selected -/
def checkoutNotify (data : Data) (why : Why) (delta : Option Delta) (wd : Option Wd) : Res Unit :=
  if why = .none then .ok ()
  else if data.notify why delta wd = 0 then .ok () else .err (data.notify why delta wd)

/-- `is_workdir_base_or_new`: src/libgit2/checkout.c:151-158 -/
def baseOrNew (id : Nat) (base new : DFile) : Bool := base.id = id ∨ new.id = id

/-- `is_filemode_changed`: src/libgit2/checkout.c:160-174 -/
def filemodeChanged (a b : Nat) (respect : Bool) : Bool :=
  if respect then a ≠ b
  else
    let a := if a = modeLink then modeBlob else a
    let b := if b = modeLink then modeBlob else b
    -- clearing the bits 0111
    a - (a &&& 0o111) ≠ b - (b &&& 0o111)

/-- `checkout_is_workdir_modified`: src/libgit2/checkout.c:176-249 -/
def isWorkdirModified (data : Data) (base new : DFile) (wd : Wd) : Bool :=
  if wd.mode = modeCommit then
    if !wd.smFound then true
    else if wd.smDirty then true
    else match wd.smId with
      | none => false
      | some id => base.id ≠ id
  else
    let slow : Bool :=
      if base.size ≠ 0 ∧ wd.size ≠ base.size then true
      else if wd.mode = modeTree then false
      else if filemodeChanged base.mode wd.mode data.respectFilemode then true
      else match wd.hash with
        | none => false
        | some id => !(baseOrNew id base new)
    match wd.index with
    | none => slow
    | some ie =>
      if !ie.newer ∧ wd.mtime = ie.mtime ∧ wd.size = ie.size ∧ !(filemodeChanged wd.mode ie.mode data.respectFilemode) then
        !(baseOrNew ie.id base new) || filemodeChanged base.mode ie.mode data.respectFilemode
      else slow

/-- `S_ISGITLINK`: src/util/posix.h:19 -/
def isGitlink (m : Nat) : Bool := m / 0o010000 % 16 = 0o16
/-- `GIT_PERMS_IS_EXEC`: src/util/futils.h:282 -/
def isExec (m : Nat) : Bool := m / 64 % 2 = 1

/-- the bits of `checkout_action_common`: src/libgit2/checkout.c:262-277 -/
def commonBits (data : Data) (a : Action) (delta : Delta) (wd : Option Wd) : Action :=
  let a := if data.strategy.updateOnly then { a with remove := false } else a
  if a.updateBlob then
    let a := if isGitlink delta.new.mode then { a with updateBlob := false, updateSubmodule := true } else a
    let a := if delta.new.mode = modeLink ∧ wd ≠ none then { a with remove := true } else a
    match wd with
    | none => a
    | some w => if isExec w.mode ≠ isExec delta.new.mode then { a with remove := true } else a
  else a

/-- `checkout_action_common`: src/libgit2/checkout.c:254-286 -/
def actionCommon (data : Data) (a : Action) (delta : Delta) (wd : Option Wd) : Res Action :=
  let b := commonBits data a delta wd
  checkoutNotify data (if b.conflict then .conflict else if a.updateBlob then .updated else .none) (some delta) wd >>= fun _ => .ok b

/-- `checkout_action_no_wd`: src/libgit2/checkout.c:288-325 -/
def actionNoWd (data : Data) (delta : Delta) : Res Action :=
  if data.strategy.none then .ok .NONE
  else
    (match delta.status with
      | .unmodified => checkoutNotify data .dirty (some delta) none >>= fun _ =>
          .ok (if data.strategy.recreateMissing then .UPDATE_BLOB else .NONE)
      | .added => .ok .UPDATE_BLOB
      | .modified => .ok (if data.strategy.recreateMissing then .UPDATE_BLOB else .CONFLICT)
      | .typechange => .ok (if delta.new.mode = modeTree then .UPDATE_BLOB else .NONE)
      | .deleted => .ok .REMOVE
      | .other => .ok .NONE) >>= fun a => actionCommon data a delta none

/-- `wd_item_is_removable`: src/libgit2/checkout.c:343-355 (the path is not too long) -/
def removable (wd : Wd) : Bool := wd.mode ≠ modeTree ∨ !wd.dotGit

/-- `git_iterator_advance`: src/libgit2/iterator.c:1596-1653, without expanding directories -/
def advance : List Wd → List Wd
  | [] => []
  | w :: r => if w.mode = modeTree then r.dropWhile (fun x => w.path.isPrefixOf x.path) else r

/-- `git_iterator_advance_into`: src/libgit2/iterator.c:1655-1692; on what is no directory the out parameter is NULL -/
def advanceInto : List Wd → List Wd
  | [] => []
  | w :: r => if w.mode = modeTree then r else []

/-- `checkout_action_wd_only`: src/libgit2/checkout.c:365-459; the items left and the path queued for removal -/
def actionWdOnly (data : Data) : List Wd → Res (List Wd × List Bytes)
  | [] => .ok ([], [])
  | wd :: rest =>
    if !wd.matched then .ok (if wd.mode = modeTree then advanceInto (wd :: rest) else advance (wd :: rest), [])
    else if wd.tracked ∧ wd.mode = modeTree then .ok (advanceInto (wd :: rest), [])
    else if wd.tracked then
      checkoutNotify data .dirty none (some wd) >>= fun _ =>
      .ok (advance (wd :: rest), if data.strategy.force ∧ removable wd then [wd.path] else [])
    else
      let ignored := if wd.mode = modeTree then decide (wd.over = .ignored) else wd.ignored
      checkoutNotify data (if ignored then .ignored else .untracked) none (some wd) >>= fun _ =>
      .ok (advance (wd :: rest),
        if (if ignored then data.strategy.removeIgnored else data.strategy.removeUntracked) ∧ removable wd then [wd.path] else [])

/-- `checkout_action_with_wd`: src/libgit2/checkout.c:491-562 -/
def actionWithWd (data : Data) (delta : Delta) (wd : Wd) : Res Action :=
  if data.strategy.none then .ok .NONE
  else
    let force := data.strategy.force
    (match delta.status with
      | .unmodified =>
        if isWorkdirModified data delta.old delta.new wd then
          checkoutNotify data .dirty (some delta) (some wd) >>= fun _ => .ok (if force then .UPDATE_BLOB else .NONE)
        else .ok .NONE
      | .added =>
        if wd.ignored then .ok (if data.strategy.dontOverwriteIgnored then .CONFLICT else .UPDATE_BLOB)
        else .ok (if force then .UPDATE_BLOB else .CONFLICT)
      | .deleted =>
        if isWorkdirModified data delta.old delta.new wd then .ok (if force then .REMOVE else .CONFLICT)
        else .ok .REMOVE
      | .modified =>
        if wd.mode ≠ modeCommit ∧ isWorkdirModified data delta.old delta.new wd then .ok (if force then .UPDATE_BLOB else .CONFLICT)
        else .ok .UPDATE_BLOB
      | .typechange =>
        let a : Action :=
          if delta.old.mode = modeTree then
            if wd.mode = modeTree then .UPDATE_BLOB
            else if wd.mode = modeCommit then
              if wd.smConfigOnly then .UPDATE_BLOB
              else if force then .REMOVE_AND_UPDATE else .CONFLICT
            else if force then .REMOVE else .CONFLICT
          else if isWorkdirModified data delta.old delta.new wd then
            if force then .REMOVE_AND_UPDATE else .CONFLICT
          else .REMOVE_AND_UPDATE
        .ok (if delta.new.mode = modeTree then { a with updateBlob := false } else a)
      | .other => .ok .NONE) >>= fun a => actionCommon data a delta (some wd)

/-- `checkout_action_with_wd_blocker`: src/libgit2/checkout.c:564-598 -/
def actionBlocker (data : Data) (delta : Delta) (wd : Wd) : Res Action :=
  if data.strategy.none then .ok .NONE
  else
    let force := data.strategy.force
    (match delta.status with
      | .unmodified => checkoutNotify data .dirty (some delta) (some wd) >>= fun _ => .ok (if force then .REMOVE_AND_UPDATE else .NONE)
      | .added => .ok (if force then .REMOVE_AND_UPDATE else .CONFLICT)
      | .modified => .ok (if force then .REMOVE_AND_UPDATE else .CONFLICT)
      | .deleted => .ok (if force then .REMOVE else .CONFLICT)
      | .typechange => .ok (if force then .REMOVE_AND_UPDATE else .CONFLICT)
      | .other => .ok .NONE) >>= fun a => actionCommon data a delta (some wd)

/-- `checkout_action_with_wd_dir`: src/libgit2/checkout.c:600-653 -/
def actionDir (data : Data) (delta : Delta) (wd : Wd) : Res Action :=
  if data.strategy.none then .ok .NONE
  else
    let force := data.strategy.force
    let occupied : Action :=
      if delta.old.mode = modeCommit then .NONE
      else if delta.new.mode ≠ modeTree then
        if wd.ignored then (if data.strategy.dontOverwriteIgnored then .CONFLICT else .REMOVE_AND_UPDATE)
        else if force then .REMOVE_AND_UPDATE else .CONFLICT
      else .NONE
    (match delta.status with
      | .unmodified => checkoutNotify data .dirty (some delta) none >>= fun _ => checkoutNotify data .untracked none (some wd) >>= fun _ =>
          .ok (if force then .REMOVE_AND_UPDATE else .NONE)
      | .added => .ok occupied
      | .modified => .ok occupied
      | .deleted =>
        if delta.old.mode ≠ modeTree then checkoutNotify data .untracked none (some wd) >>= fun _ => .ok .NONE
        else .ok .NONE
      | .typechange =>
        .ok (if delta.old.mode = modeTree then .UPDATE_BLOB
          else if delta.new.mode ≠ modeTree then (if force then .REMOVE_AND_UPDATE else .CONFLICT)
          else .NONE)
      | .other => .ok .NONE) >>= fun a => actionCommon data a delta (some wd)

/-- `checkout_action_with_wd_dir_empty`: src/libgit2/checkout.c:655-667 -/
def actionDirEmpty (data : Data) (delta : Delta) : Res Action :=
  actionNoWd data delta >>= fun a => .ok (if a ≠ .NONE then { a with remove := true } else a)

/-- `checkout_action`: src/libgit2/checkout.c:669-776; the action, the items left, the paths queued for removal. `fuel` bounds the turns of
the loop, each of which leaves fewer items. -/
def checkoutAction (data : Data) (delta : Delta) : Nat → List Wd → List Bytes → Res (Action × List Wd × List Bytes)
  | 0, st, q => .ok (.NONE, st, q)
  | _ + 1, [], q => actionNoWd data delta >>= fun a => .ok (a, [], q)
  | fuel + 1, wd :: rest, q =>
    let st := wd :: rest
    let cmp := bcmp wd.path delta.path
    if cmp < 0 then
      if wd.path.isPrefixOf delta.path ∧ wd.mode = modeTree then checkoutAction data delta fuel (advanceInto st) q
      else if wd.path.isPrefixOf delta.path ∧ PathValid.peek delta.path wd.path.length = c!"/" then
        actionBlocker data delta wd >>= fun a => .ok (a, advance st, q)
      else actionWdOnly data st >>= fun r => checkoutAction data delta fuel r.1 (q ++ r.2)
    else if cmp = 0 then actionWithWd data delta wd >>= fun a => .ok (a, advance st, q)
    else if delta.path.isPrefixOf wd.path then
      if PathValid.peek wd.path delta.path.length ≠ c!"/" then actionNoWd data delta >>= fun a => .ok (a, st, q)
      else if delta.status = .typechange ∧ delta.old.mode = modeTree then
        actionWithWd data delta wd >>= fun a => .ok (a, advanceInto st, q)
      else if delta.status = .typechange ∧ (delta.new.mode = modeTree ∨ delta.new.mode = modeCommit ∨ delta.old.mode = modeCommit) then
        actionWithWd data delta wd >>= fun a => .ok (a, advance st, q)
      else if wd.emptyDir then actionDirEmpty data delta >>= fun a => .ok (a, st, q)
      else actionDir data delta wd >>= fun a => .ok (a, st, q)
    else actionNoWd data delta >>= fun a => .ok (a, st, q)

/-- `checkout_remaining_wd_items`: src/libgit2/checkout.c:778-793 -/
def remaining (data : Data) : Nat → List Wd → List Bytes → Res (List Bytes)
  | 0, _, q => .ok q
  | _ + 1, [], q => .ok q
  | fuel + 1, st, q => actionWdOnly data st >>= fun r => remaining data fuel r.1 (q ++ r.2)

/-- `checkout_verify_paths`: src/libgit2/checkout.c:1288-1310; a mode is a symbolic link's if it has that type (`S_ISLNK`) -/
def verifyPaths (data : Data) (a : Action) (d : Delta) : Bool :=
  (!a.remove || PathValid.isValid data.repo d.path (d.old.mode / 0o010000 % 16 = 0o12) PathValid.workdirDefaults) &&
  (!(a.updateBlob || a.updateSubmodule || a.conflict) || PathValid.isValid data.repo d.path (d.new.mode / 0o010000 % 16 = 0o12) PathValid.workdirDefaults)

/-- the loop of `checkout_get_actions`: src/libgit2/checkout.c:1347-1365 -/
def actionsLoop (data : Data) : List Delta → List Wd → List Bytes → Res (List Action × List Wd × List Bytes)
  | [], st, q => .ok ([], st, q)
  | d :: ds, st, q =>
    checkoutAction data d (st.length + 1) st q >>= fun r =>
    if !(verifyPaths data r.1 d) then .err (-1)
    else actionsLoop data ds r.2.1 r.2.2 >>= fun s => .ok (r.1 :: s.1, s.2)

/-- `checkout_get_actions` up to the check for conflicts: src/libgit2/checkout.c:1312-1381 (the index has no conflicts); -13 is
`GIT_ECONFLICT` -/
def getActions (data : Data) (ds : List Delta) (wds : List Wd) : Res (List Action × List Bytes) :=
  actionsLoop data ds wds [] >>= fun r =>
  remaining data (r.2.1.length + 1) r.2.1 r.2.2 >>= fun q =>
  if r.1.any (·.conflict) ∧ !data.strategy.allowConflicts then .err (-13) else .ok (r.1, q)

/-! ### what is done

The files of the work directory (with the contents, as ids) as a function of the path; directories are there where a file is below. -/
/-- [the files on disk with their contents, what src/libgit2/checkout.c:1496-2200 writes to and removes from] -/
abbrev Files := Bytes → Option Nat

/-- `git_futils_rmdir_r` with the flags of `checkout_remove_the_old`: src/util/futils.c:746-889: a file or a directory with all that is below
is removed; if a directory above is a file (`ENOTDIR`), that one is (`GIT_RMDIR_REMOVE_BLOCKERS`) -/
def rmdirR (fs : Files) (q : Bytes) : Files := fun p =>
  if p = q ∨ (q ++ [c!"/"]).isPrefixOf p then none
  else if (p ++ [c!"/"]).isPrefixOf q then none
  else fs p

/-- `checkout_blob`: src/libgit2/checkout.c:1786-1817, with the content's id. Writing fails if a directory above is a file or the path is
a directory, or for a symbolic link if the path exists (`blocked`), and then no file changes; with `UPDATE_ONLY` it may be skipped. Both
are left open: `done` says if it is written. -/
def writeBlob (fs : Files) (d : Delta) (done : Bool) : Files := fun p => if done ∧ p = d.path then some d.new.id else fs p

/-- `checkout_remove_the_old`: src/libgit2/checkout.c:1819-1876 -/
def removeOld (fs : Files) (work : List (Delta × Action)) (q : List Bytes) : Files :=
  q.foldl rmdirR ((work.filter (·.2.remove)).foldl (fun fs w => rmdirR fs w.1.path) fs)

/-- `checkout_create_the_new`: src/libgit2/checkout.c:1878-1905; files first, then symbolic links. `done` says which ones are written. -/
def createNew (fs : Files) (work : List (Delta × Action)) (done : Delta → Bool) : Files :=
  let up := work.filter (·.2.updateBlob)
  let isLink := fun w : Delta × Action => decide (w.1.new.mode / 0o010000 % 16 = 0o12)
  (up.filter isLink).foldl (fun fs w => writeBlob fs w.1 (done w.1)) ((up.filter fun w => !(isLink w)).foldl (fun fs w => writeBlob fs w.1 (done w.1)) fs)

/-- `git_checkout_iterator`: src/libgit2/checkout.c:2555-2696: the files after it; submodules only create directories. `done` says which
writes succeed (or are reached). -/
def checkout (data : Data) (ds : List Delta) (wds : List Wd) (fs : Files) (done : Delta → Bool) : Res Unit × Files :=
  match getActions data ds wds with
  | .ok (as, q) => (.ok (), createNew (removeOld fs (ds.zip as) q) (ds.zip as) done)
  | .err e => (.err e, fs)
  | .ub => (.ub, fs)

end Verif.Checkout
