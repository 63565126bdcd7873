import Verif.Conc
/-! # The file system as system calls see it, and `git_filebuf` on top of it

Simplifications: one flat name space of regular files (directories, symbolic links and permissions are not modelled, so
`resolve_symlink`, the EDIRECTORY check and GIT_FILEBUF_CREATE_LEADING_DIRS do nothing here); no compression (`write_normal` only), no
digest.  A file is an inode; an open descriptor refers to the inode, a directory maps paths to inodes, so that renaming and unlinking
while a descriptor is open behave as on POSIX systems. -/
namespace Verif.FileBuf
open Verif.Conc

/-- [`const char *path` of src/util/filebuf.h] -/
abbrev Path := Bytes
/-- [files by number, what a `git_file` of src/util/posix.h names] -/
abbrev Ino := Nat

/-- Ghost events: what a client of `git_filebuf` does around its critical section, and the moments at which a file is replaced.  They
have no effect on the file system. [no code: the places are before src/util/filebuf.c:276 and after 456] -/
inductive Event where
  /-- `git_filebuf_open` of this path has returned success -/
  | acquired (path : Path)
  /-- the client is about to call `git_filebuf_commit` or `git_filebuf_cleanup` -/
  | releasing (path : Path)
  /-- recorded by the `rename` call itself: a file was moved to this path -/
  | placed (path : Path)
  /-- the client found that its file already has the value it wants (used by the reference database) -/
  | same (path : Path)
  /-- the client has deleted this path (used by the reference database) -/
  | gone (path : Path)
  deriving DecidableEq

/-- The shared state. `owner` (the process that created the inode) and `log` are ghosts: no command reads them. [what the calls of src/util/posix.c work on] -/
structure FS where
  dir : Path → Option Ino
  data : Ino → Bytes
  /-- the content has reached the disk -/
  synced : Ino → Bool
  owner : Ino → Option Pid
  /-- the next fresh inode -/
  next : Nat
  log : List (Pid × Event)

/-- [results of src/util/posix.c:108-133] -/
inductive CreatRes where
  | fd (i : Ino)
  | eexist
  | fail

/-- [results of src/util/futils.c:148-300] -/
inductive ReadRes where
  | data (b : Bytes)
  | enoent
  | fail

/-- [results of p_unlink: src/util/unix/posix.h:43] -/
inductive UnlinkRes where
  | ok
  | enoent
  | fail

/-- Which failures of the system are considered, beyond those that are always: failing to sync a directory after a rename, and failing to
read (stat, open, read) a file that is there. [no code] -/
structure Faults where
  parentSync : Bool
  read : Bool

/-- [results of p_stat, src/util/unix/posix.h] -/
inductive StatRes where
  | size (n : Nat)
  | enoent
  | fail

/-- [the system calls made in src/util/filebuf.c, futils.c and posix.c] -/
inductive Cmd where
  /-- `git_fs_path_exists` -/
  | exist (p : Path)
  /-- `open(O_CREAT | O_EXCL)` -/
  | creat (p : Path)
  /-- `p_write`: src/util/posix.c:200-225 -/
  | write (fd : Ino) (d : Bytes)
  | fsync (fd : Ino)
  | close (fd : Ino)
  | rename (p q : Path)
  /-- `git_futils_fsync_parent` -/
  | fsyncParent (p : Path)
  | unlink (p : Path)
  | stat (p : Path)
  /-- open a file and read `n` bytes from it; fewer bytes are an error -/
  | readN (p : Path) (n : Nat)
  /-- open a file and read all of it through the descriptor -/
  | readAll (p : Path)
  | event (e : Event)

/-- [the results of the system calls made in src/util/filebuf.c, futils.c and posix.c] -/
def R : Cmd → Type
  | .exist _ => Bool
  | .creat _ => CreatRes
  | .write _ _ => Bool
  | .fsync _ => Bool
  | .close _ => Bool
  | .rename _ _ => Bool
  | .fsyncParent _ => Bool
  | .unlink _ => UnlinkRes
  | .stat _ => StatRes
  | .readN _ _ => ReadRes
  | .readAll _ => ReadRes
  | .event _ => Unit

/-- [no code: a function with one value replaced] -/
def upd {α β : Type} [DecidableEq α] (f : α → β) (a : α) (b : β) : α → β := fun x => if x = a then b else f x

/-- the content of the file at a path [no code] -/
def FS.content (s : FS) (p : Path) : Option Bytes := (s.dir p).map s.data

/-- `open(O_CREAT | O_EXCL)`: succeeds only if there is no file, and then creates an empty one. [open(2), called from src/util/posix.c:108-133] -/
def xCreat (p : Pid) (x : Path) (s : FS) (r : CreatRes) (s' : FS) : Prop :=
  match r with
  | .fd i => s.dir x = none ∧ i = s.next ∧
      s' = { s with dir := upd s.dir x (some i), data := upd s.data i [], synced := upd s.synced i false,
                    owner := upd s.owner i (some p), next := s.next + 1 }
  | .eexist => s' = s ∧ (s.dir x).isSome
  | .fail => s' = s

/-- `p_write` appends everything, or fails after appending any part of it. [src/util/posix.c:200-225] -/
def xWrite (i : Ino) (d : Bytes) (s : FS) (r : Bool) (s' : FS) : Prop :=
  match r with
  | true => s' = { s with data := upd s.data i (s.data i ++ d), synced := upd s.synced i false }
  | false => ∃ k, s' = { s with data := upd s.data i (s.data i ++ d.take k), synced := upd s.synced i false }

/-- [fsync(2), called from src/util/filebuf.c:435] -/
def xFsync (i : Ino) (s : FS) (r : Bool) (s' : FS) : Prop :=
  match r with
  | true => s' = { s with synced := upd s.synced i true }
  | false => s' = s

/-- `rename`: the file at `x` takes the place of whatever is at `y`, in one step. [rename(2), called from src/util/posix.c:153-164] -/
def xRename (p : Pid) (x y : Path) (s : FS) (r : Bool) (s' : FS) : Prop :=
  match r with
  | true => ∃ i, s.dir x = some i ∧ s' = { s with dir := upd (upd s.dir x none) y (some i), log := s.log ++ [(p, .placed y)] }
  | false => s' = s

/-- [unlink(2), called from src/util/filebuf.c:107] -/
def xUnlink (x : Path) (s : FS) (r : UnlinkRes) (s' : FS) : Prop :=
  match r with
  | .ok => s.dir x ≠ none ∧ s' = { s with dir := upd s.dir x none }
  | .enoent => s.dir x = none ∧ s' = s
  | .fail => s' = s

/-- [stat(2), called from src/util/futils.c:238] -/
def xStat (rd : Bool) (x : Path) (s : FS) (r : StatRes) (s' : FS) : Prop :=
  s' = s ∧
  match r with
  | .size n => ∃ b, s.content x = some b ∧ n = b.length
  | .enoent => s.content x = none
  | .fail => rd = true

/-- [src/util/futils.c:148-183] -/
def xReadN (rd : Bool) (x : Path) (n : Nat) (s : FS) (r : ReadRes) (s' : FS) : Prop :=
  s' = s ∧
  match r with
  | .data d => ∃ b, s.content x = some b ∧ n ≤ b.length ∧ d = b.take n
  | .enoent => s.content x = none
  | .fail => rd = true ∨ ∃ b, s.content x = some b ∧ b.length < n

/-- [src/util/filebuf.c:66-95] -/
def xReadAll (rd : Bool) (x : Path) (s : FS) (r : ReadRes) (s' : FS) : Prop :=
  s' = s ∧
  match r with
  | .data d => s.content x = some d
  | .enoent => s.content x = none
  | .fail => rd = true

/-- What the system calls can do.  Creating, writing, syncing, closing, renaming and unlinking may fail at any time for reasons the model
does not describe (`false`, `fail`); a failing write may leave any part of the data in the file.  The remaining failures are possible as
`f` says. [the system calls of src/util/posix.c:108-225 and unix/posix.h] -/
def exec (f : Faults) : Sem Cmd R FS := fun p c s r s' =>
  match c, r with
  | .exist x, (r : Bool) => s' = s ∧ r = (s.dir x).isSome
  | .creat x, r => xCreat p x s r s'
  | .write i d, r => xWrite i d s r s'
  | .fsync i, r => xFsync i s r s'
  | .close _, _ => s' = s
  | .rename x y, r => xRename p x y s r s'
  | .fsyncParent _, (r : Bool) => s' = s ∧ (f.parentSync = false → r = true)
  | .unlink x, r => xUnlink x s r s'
  | .stat x, r => xStat f.read x s r s'
  | .readN x n, r => xReadN f.read x n s r s'
  | .readAll x, r => xReadAll f.read x s r s'
  | .event e, _ => s' = { s with log := s.log ++ [(p, e)] }

/-- [no code: programs of system calls] -/
abbrev P (α : Type) := Prog Cmd R α

/-- [src/util/filebuf.c:46, 106] -/
def sExist (p : Path) : P Bool := Prog.cmd (R := R) (Cmd.exist p)
/-- [src/util/filebuf.c:54-63] -/
def sCreat (p : Path) : P CreatRes := Prog.cmd (R := R) (Cmd.creat p)
/-- [src/util/filebuf.c:147] -/
def sWrite (i : Ino) (d : Bytes) : P Bool := Prog.cmd (R := R) (Cmd.write i d)
/-- [src/util/filebuf.c:435] -/
def sFsync (i : Ino) : P Bool := Prog.cmd (R := R) (Cmd.fsync i)
/-- [src/util/filebuf.c:103-104, 440] -/
def sClose (i : Ino) : P Bool := Prog.cmd (R := R) (Cmd.close i)
/-- [src/util/filebuf.c:447] -/
def sRename (p q : Path) : P Bool := Prog.cmd (R := R) (Cmd.rename p q)
/-- [src/util/filebuf.c:452] -/
def sFsyncParent (p : Path) : P Bool := Prog.cmd (R := R) (Cmd.fsyncParent p)
/-- [src/util/filebuf.c:106-107] -/
def sUnlink (p : Path) : P UnlinkRes := Prog.cmd (R := R) (Cmd.unlink p)
/-- [src/util/futils.c:238] -/
def sStat (p : Path) : P StatRes := Prog.cmd (R := R) (Cmd.stat p)
/-- [src/util/futils.c:256] -/
def sReadN (p : Path) (n : Nat) : P ReadRes := Prog.cmd (R := R) (Cmd.readN p n)
/-- [src/util/filebuf.c:72-95] -/
def sReadAll (p : Path) : P ReadRes := Prog.cmd (R := R) (Cmd.readAll p)
/-- [no code: records what the client does] -/
def sEvent (e : Event) : P Unit := Prog.cmd (R := R) (Cmd.event e)

/-! ## git_filebuf -/

/-- GIT_ELOCKED: include/git2/errors.h:50. -/
def ELOCKED : Int := -14

/-- GIT_FILELOCK_EXTENSION: src/util/filebuf.h:29. -/
def lockPath (p : Path) : Path := p ++ b!".lock"

/-- Flags of `git_filebuf_open_withsize`: src/util/filebuf.h:20-27. -/
structure Opts where
  append : Bool
  fsync : Bool
  noBuffer : Bool
  bufSize : Nat

/-- `struct git_filebuf`: src/util/filebuf.h:33-56. `lastError` is `last_error != BUFERR_OK`; `fd = none` is `-1`. -/
structure FB where
  path : Path
  opts : Opts
  fd : Option Ino
  fdOpen : Bool
  createdLock : Bool
  didRename : Bool
  buf : Bytes
  lastError : Bool

/-- The structure after `memset` and before the lock is taken: src/util/filebuf.c:299-318. -/
def fbInit (path : Path) (o : Opts) : FB := ⟨path, o, none, false, false, false, [], false⟩

/-- closing the descriptor in `git_filebuf_cleanup`: src/util/filebuf.c:103-104 -/
def closeFd (f : FB) : P Unit :=
  match f.fdOpen, f.fd with
  | true, some i => do
    let _ ← sClose i
    pure ()
  | _, _ => pure ()

/-- removing the lock in `git_filebuf_cleanup`: src/util/filebuf.c:106-106 -/
def dropLock (f : FB) : P Unit :=
  if f.createdLock && !f.didRename then do
    let e ← sExist (lockPath f.path)
    if e then do
      let _ ← sUnlink (lockPath f.path)
      pure ()
    else pure ()
  else pure ()

/-- `git_filebuf_cleanup`: src/util/filebuf.c:101-130. -/
def cleanup (f : FB) : P Unit := do
  closeFd f
  dropLock f

/-- The copy of GIT_FILEBUF_APPEND: src/util/filebuf.c:70-96; the chunked copy is one read and one write, both of which can fail. -/
def appendCopy (f : FB) (i : Ino) : P Int := do
  let e ← sExist f.path
  if e then
    match ← sReadAll f.path with
    | .data d => do
      let w ← sWrite i d
      if w then pure 0 else pure (-1)
    | _ => pure (-1)
  else pure 0

/-- `lock_file`: src/util/filebuf.c:44-99. -/
def lockFile (f : FB) : P (Int × FB) := do
  let e ← sExist (lockPath f.path)
  if e then pure (ELOCKED, f)
  else
    match ← sCreat (lockPath f.path) with
    | .eexist => pure (ELOCKED, f)
    | .fail => pure (-1, f)
    | .fd i => do
      let f := { f with fd := some i, fdOpen := true }
      if f.opts.append then do
        let r ← appendCopy f i
        pure (r, f)
      else pure (0, f)

/-- `git_filebuf_open_withsize`: src/util/filebuf.c:276-392. -/
def fbOpen (path : Path) (o : Opts) : P (Int × FB) := do
  let (r, f) ← lockFile (fbInit path o)
  if r < 0 then do
    cleanup f
    pure (r, fbInit path o)
  else pure (0, { f with createdLock := true })

/-- `write_normal`: src/util/filebuf.c:144-157. -/
def writeNormal (f : FB) (d : Bytes) : P (Int × FB) :=
  if 0 < d.length then
    match f.fd with
    | none => pure (-1, { f with lastError := true })
    | some i => do
      let w ← sWrite i d
      if w then pure (0, f) else pure (-1, { f with lastError := true })
  else pure (0, f)

/-- `flush_buffer`: src/util/filebuf.c:132-137. -/
def flushBuffer (f : FB) : P (Int × FB) := do
  let (r, f') ← writeNormal f f.buf
  pure (r, { f' with buf := [] })

/-- The loop of `git_filebuf_write`: src/util/filebuf.c:480-495. It ends because `buf_size` is positive; `fuel` bounds it. -/
def writeLoop : Nat → FB → Bytes → P (Int × FB)
  | 0, f, _ => pure (-1, { f with lastError := true })
  | fuel + 1, f, d =>
    let space := f.opts.bufSize - f.buf.length
    if space > d.length then pure (0, { f with buf := f.buf ++ d })
    else do
      let (r, f) ← flushBuffer { f with buf := f.buf ++ d.take space }
      if r < 0 then pure (-1, f) else writeLoop fuel f (d.drop space)

/-- `git_filebuf_write`: src/util/filebuf.c:471-496. -/
def fbWrite (f : FB) (d : Bytes) : P (Int × FB) :=
  if f.lastError then pure (-1, f)
  else if f.opts.noBuffer then writeNormal f d
  else writeLoop (d.length + 2) f d

/-- The loop of `git_filebuf_printf` (at most two rounds): src/util/filebuf.c:550-568, for the text `d` that the format produces; then
`git_filebuf_write` of the whole text (src/util/filebuf.c:570-590). -/
def fbPrintf (f : FB) (d : Bytes) : P (Int × FB) := do
  if f.lastError then pure (-1, f)
  else if d.length + 1 ≤ f.opts.bufSize - f.buf.length then pure (0, { f with buf := f.buf ++ d })
  else do
    let (r, f) ← flushBuffer f
    if r < 0 then pure (-1, f)
    else if d.length + 1 ≤ f.opts.bufSize - f.buf.length then pure (0, { f with buf := f.buf ++ d })
    else fbWrite f d

/-- the error exit of `git_filebuf_commit`: src/util/filebuf.c:460-462 -/
def commitFail (f : FB) : P Int := do
  cleanup f
  pure (-1)

/-- syncing the parent directory, if asked: src/util/filebuf.c:452-453 -/
def syncParent (f : FB) : P Bool := if f.opts.fsync then sFsyncParent f.path else pure true

/-- syncing the file, if asked: src/util/filebuf.c:435-438 -/
def syncFile (f : FB) (i : Ino) : P Bool := if f.opts.fsync then sFsync i else pure true

/-- the rename and what follows it: src/util/filebuf.c:447-459 -/
def commitRename (f : FB) : P Int := do
  let rn ← sRename (lockPath f.path) f.path
  if rn then do
    let ps ← syncParent f
    if ps then do
      cleanup { f with didRename := true }
      pure 0
    else commitFail f
  else commitFail f

/-- `git_filebuf_commit` after the flush: src/util/filebuf.c:429-459 -/
def commitTail (f : FB) : P Int :=
  if f.lastError then commitFail f
  else
    match f.fd with
    | none => commitFail { f with fdOpen := false }
    | some i => do
      let s ← syncFile f i
      if s then do
        let c ← sClose i
        if c then commitRename { f with fdOpen := false, fd := none }
        else commitFail { f with fdOpen := false }
      else commitFail { f with fdOpen := false }

/-- `git_filebuf_commit`: src/util/filebuf.c:421-463. -/
def fbCommit (f : FB) : P Int := do
  let (_, f) ← flushBuffer f
  commitTail f

/-! ## A client -/

/-- A client that replaces one file: it opens it, writes the pieces and then commits, or abandons the attempt with
`git_filebuf_cleanup`; `checks` says whether it stops at the first write that reports an error (a client that does not check is allowed:
the error is remembered by the structure). [a user of src/util/filebuf.h] -/
structure Job where
  path : Path
  opts : Opts
  pieces : List Bytes
  checks : Bool
  abandon : Bool

/-- the writes of a client [src/util/filebuf.c:471-496] -/
def writeAll (checks : Bool) : List Bytes → FB → P (Bool × FB)
  | [], f => pure (true, f)
  | d :: ds, f => do
    let (r, f) ← fbWrite f d
    if checks ∧ r < 0 then pure (false, f) else writeAll checks ds f

/-- the client; the `event` commands only record what it does [a user of src/util/filebuf.c:276-496] -/
def Job.run (j : Job) : P Int := do
  let (r, f) ← fbOpen j.path j.opts
  if r < 0 then pure r
  else do
    sEvent (.acquired j.path)
    let (ok, f) ← writeAll j.checks j.pieces f
    sEvent (.releasing j.path)
    if j.abandon ∨ ok = false then do
      cleanup f
      pure (-1)
    else fbCommit f

end Verif.FileBuf
