import Verif.Racy.Spec
/-! # Trusting the data of a file in the index: src/libgit2/index.c, src/libgit2/diff_generate.c

One path, with a regular file or nothing. Conflicts, submodules and symbolic links are not modelled, nor are errors of I/O and memory. The clock of the file system does not go back and
times of files are those at which they were written. -/
namespace Verif.Racy
open Spec

/-- `git_index_time`: include/git2/index.h:29-34 -/
structure IndexTime where
  seconds : Int
  nanoseconds : Nat
  deriving DecidableEq, Repr

/-- the settings: `nsec` is `GIT_NSEC` (cmake/SelectNsec.cmake:26), `trustCtime` and `trustMode` are `core.trustctime` and `core.filemode` [src/libgit2/diff_generate.c:528-533],
`filter` what the filters to the object database do to the contents when there are any, `blobId` the id of a blob with a header that says some length and some contents
[src/libgit2/odb.c:208-268] -/
structure Env where
  blobId : Nat → Bytes → Bytes
  filter : Option (Bytes → Bytes) := none
  nsec : Bool := true
  trustCtime : Bool := true
  trustMode : Bool := true

/-- `(int32_t)x` -/
def int32 (x : Int) : Int := (x + 2 ^ 31) % 2 ^ 32 - 2 ^ 31

/-- `git_index_entry` of stage 0: include/git2/index.h:58-75. `owner` stands for `ino`, `uid` and `gid`; `assumeUnchanged` is `GIT_INDEX_ENTRY_VALID`, `skipWorktree` and `uptodate` are flags of
`flags_extended` [include/git2/index.h:86, 135-138]. -/
structure Entry where
  mtime : IndexTime
  ctime : IndexTime
  owner : Nat
  mode : Nat
  size : Nat
  id : Bytes
  assumeUnchanged : Bool := false
  skipWorktree : Bool := false
  uptodate : Bool := false
  deriving DecidableEq, Repr

/-- `struct stat`, as far as it is used [src/libgit2/index.c:885-901] -/
structure Stat where
  mtime : Time
  ctime : Time
  owner : Nat
  exec : Bool
  size : Nat
  deriving DecidableEq, Repr

/-- `lstat` [src/libgit2/iterator.c:1509-1546] -/
def statOf (f : File) : Stat := ⟨f.mtime, f.ctime, f.owner, f.exec, f.content.length⟩

/-- a time in an index entry: src/libgit2/index.c:888-893; src/libgit2/iterator.c:1520-1529 -/
def indexTime (E : Env) (t : Time) : IndexTime := ⟨int32 t.sec, if E.nsec then t.nsec % 2 ^ 32 else 0⟩

/-- `git_index_time_eq`: src/libgit2/index.h:87-98 -/
def timeEq (E : Env) (a b : IndexTime) : Bool :=
  if a.seconds ≠ b.seconds then false
  else if E.nsec && decide (a.nanoseconds ≠ b.nanoseconds) then false
  else true

/-- `git_index_entry_newer_than_index`: src/libgit2/index.h:105-122, for an entry with this `mtime`. `stamp` is `index->stamp.mtime`. -/
def newerThanIndex (E : Env) (mtime : IndexTime) (stamp : Time) : Bool :=
  if stamp.sec = 0 then false
  else if E.nsec then
    if int32 stamp.sec < mtime.seconds then true
    else if int32 stamp.sec > mtime.seconds then false
    else decide (stamp.nsec % 2 ^ 32 ≤ mtime.nanoseconds)
  else decide (int32 stamp.sec ≤ mtime.seconds)

/-- `git_futils_canonical_mode` and `git_index__create_mode` of a regular file [src/util/futils.c:134-146] -/
def fileMode (exec : Bool) : Nat := if exec then 0o100755 else 0o100644

/-- `git_index_entry__init_from_stat`: src/libgit2/index.c:885-901; `filesystem_iterator_set_current`: src/libgit2/iterator.c:1509-1546 -/
def entryFromStat (E : Env) (st : Stat) (mode : Nat) (id : Bytes) : Entry :=
  { mtime := indexTime E st.mtime, ctime := indexTime E st.ctime, owner := st.owner, mode := mode, size := st.size % 2 ^ 32, id := id }

/-- the loop of `git_odb__hashfd`: src/libgit2/odb.c:242-247. `size` is a `size_t` that is decremented by what was read, 65536 bytes at a time; what was hashed and the size that is left. -/
def hashLoop : Nat → Nat → Bytes → Bytes → Bytes × Nat
  | 0, size, _, acc => (acc, size)
  | fuel + 1, size, rest, acc =>
    if size > 0 ∧ rest ≠ [] then
      hashLoop fuel ((size + 2 ^ 64 - (rest.take 65536).length) % 2 ^ 64) (rest.drop 65536) (acc ++ rest.take 65536)
    else (acc, size)

/-- `git_odb__hashfd`: src/libgit2/odb.c:208-268 -/
def hashFd (E : Env) (size : Nat) (content : Bytes) : Res Bytes :=
  let r := hashLoop (content.length + 1) size content []
  if r.2 > 0 then .err (-1) else .ok (E.blobId size r.1)

/-- `git_odb__hashfd_filtered`: src/libgit2/odb.c:270-300, with `git_futils_readbuffer_fd`: src/util/futils.c:148-183 -/
def hashFiltered (E : Env) (size : Nat) (content : Bytes) : Res Bytes :=
  match E.filter with
  | none => hashFd E size content
  | some f =>
    if (content.take size).length ≠ size then .err (-1)
    else .ok (E.blobId (f (content.take size)).length (f (content.take size)))

/-- the status of an entry that has a file, and whether the index entry was found right by reading the file -/
structure Verdict where
  modified : Bool
  confirmed : Bool
  deriving DecidableEq, Repr

/-- the mode that is compared: src/libgit2/diff_generate.c:828-832 -/
def newMode (E : Env) (o : Entry) (st : Stat) : Nat :=
  if !E.trustMode then fileMode st.exec - fileMode st.exec % 512 + o.mode % 512 else fileMode st.exec

/-- the end of `maybe_modified`: src/libgit2/diff_generate.c:914-930, with `git_diff__oid_for_entry` (628-724): the file is read now, with the size that was found when the directory was read -/
def confirm (E : Env) (o : Entry) (st : Stat) (content : Bytes) : Res Verdict :=
  hashFiltered E (st.size % 2 ^ 32) content >>= fun id =>
  .ok ⟨!(decide (o.mode = newMode E o st) && decide (o.id = id)), decide (o.mode = newMode E o st) && decide (o.id = id)⟩

/-- `maybe_modified`: src/libgit2/diff_generate.c:803-949, for an index entry and a regular file whose data `st` has been got before -/
def maybeModified (E : Env) (o : Entry) (stamp : Time) (st : Stat) (content : Bytes) : Res Verdict :=
  if o.assumeUnchanged then .ok ⟨false, false⟩
  else if o.skipWorktree then .ok ⟨false, false⟩
  else
    let n := entryFromStat E st (newMode E o st) []
    if o.mode ≠ n.mode ∨ o.size ≠ n.size then
      if o.size = 0 ∧ n.size > 0 then confirm E o st content else .ok ⟨true, false⟩
    else if !timeEq E o.mtime n.mtime || (E.trustCtime && !timeEq E o.ctime n.ctime) || decide (o.owner ≠ n.owner) || newerThanIndex E n.mtime stamp then
      confirm E o st content
    else .ok ⟨false, false⟩

/-- the id `git_blob__create_from_paths` gives the contents: src/libgit2/blob.c:185-270; the size was got before, and without filters it must be right (`write_file_stream`, 102-137) -/
def createBlob (E : Env) (size : Nat) (content : Bytes) : Res Bytes :=
  match E.filter with
  | none => if content.length ≠ size then .err (-1) else .ok (E.blobId size content)
  | some f => .ok (E.blobId (f content).length (f content))

/-- the mode of an entry that is added: `index_merge_mode`, src/libgit2/index.c:329-341, 885-901 -/
def mergeMode (E : Env) (existing : Option Entry) (st : Stat) : Nat :=
  if E.trustMode then fileMode st.exec
  else match existing with | some e => e.mode | none => 0o100644

/-- `index_entry_init` (src/libgit2/index.c:960-1012) and `index_insert` (1344-1434), in `git_index_add_bypath` (1563-1617) -/
def addEntry (E : Env) (existing : Option Entry) (st : Stat) (content : Bytes) : Res Entry :=
  createBlob E st.size content >>= fun id =>
  .ok { entryFromStat E st (mergeMode E existing st) id with uptodate := true }

/-- what a program is doing -/
inductive Doing where
  | nothing
  | adding (st : Stat)
  | diffing (st : Stat)
  | writing
  deriving DecidableEq, Repr

/-- a `git_index` in memory: src/libgit2/index.h:28-60 -/
structure Mem where
  entry : Option Entry := none
  stamp : Time := ⟨0, 0⟩
  doing : Doing := .nothing
  deriving DecidableEq, Repr

/-- the file, the index file (its entry and its time) and the programs -/
structure St where
  clock : Time
  file : Option File := none
  disk : Option (Option Entry × Time) := none
  mem : Nat → Mem := fun _ => {}

/-- program `p` gets on -/
def setMem (s : St) (p : Nat) (m : Mem) : St := { s with mem := fun q => if q = p then m else s.mem q }

/-- `truncate_racily_clean`: src/libgit2/index.c:726-778: the entry, whose size is set to 0 if it is racy and there is a difference. If the comparison fails nothing is done, and
`git_index_write` (807) does not look at the error. -/
def truncateRacilyClean (E : Env) (m : Mem) (file : Option File) : Option Entry :=
  match m.entry with
  | none => none
  | some e =>
    if !e.uptodate && newerThanIndex E e.mtime m.stamp then
      match file with
      | none => some { e with size := 0 }
      | some f => match maybeModified E e m.stamp (statOf f) f.content with
        | .ok v => if v.modified then some { e with size := 0 } else some e
        | _ => some e
    else some e

/-- `git_indexwriter_commit`: src/libgit2/index.c:3882-3916, and `clear_uptodate` (3197-3204). Writing and getting the time of the file are one step. -/
def clearUptodate (e : Option Entry) : Option Entry := e.map fun e => { e with uptodate := false }

/-- what `git_diff_index_to_workdir` does to the entry: src/libgit2/diff_generate.c:706-719, 915-917 -/
def updateIndex (E : Env) (m : Mem) (st : Stat) (content : Bytes) : Option Entry :=
  match m.entry with
  | none => none
  | some e => match maybeModified E e m.stamp st content with
    | .ok v => if v.confirmed then some { entryFromStat E st (newMode E e st) e.id with uptodate := true } else some e
    | _ => some e

/-- one event; `none` when it cannot happen -/
def step (E : Env) (s : St) : Event → Option St
  | .tick t => if t.Valid ∧ s.clock.le t then some { s with clock := t } else none
  | .edit c x o => some { s with file := some ⟨c, x, s.clock, s.clock, o⟩ }
  | .remove => some { s with file := none }
  | .addStat p => match s.file, (s.mem p).doing with
    | some f, .nothing => some (setMem s p { s.mem p with doing := .adding (statOf f) })
    | _, _ => none
  | .addRead p => match s.file, (s.mem p).doing with
    | some f, .adding st => match addEntry E (s.mem p).entry st f.content with
      | .ok e => some (setMem s p { s.mem p with entry := some e, doing := .nothing })
      | _ => some (setMem s p { s.mem p with doing := .nothing })
    | none, .adding _ => some (setMem s p { s.mem p with doing := .nothing })
    | _, _ => none
  | .diffStat p => match s.file, (s.mem p).doing with
    | some f, .nothing => some (setMem s p { s.mem p with doing := .diffing (statOf f) })
    | _, _ => none
  | .diffRead p => match s.file, (s.mem p).doing with
    | some f, .diffing st => some (setMem s p { s.mem p with entry := updateIndex E (s.mem p) st f.content, doing := .nothing })
    | none, .diffing _ => some (setMem s p { s.mem p with doing := .nothing })
    | _, _ => none
  | .check p => match (s.mem p).doing with
    | .nothing => some (setMem s p { s.mem p with entry := truncateRacilyClean E (s.mem p) s.file, doing := .writing })
    | _ => none
  | .commit p => match (s.mem p).doing with
    | .writing => some { setMem s p { entry := clearUptodate (s.mem p).entry, stamp := s.clock, doing := .nothing } with disk := some (clearUptodate (s.mem p).entry, s.clock) }
    | _ => none
  | .read p => match s.disk, (s.mem p).doing with
    | some (e, t), .nothing => some (setMem s p { entry := e, stamp := t, doing := .nothing })
    | _, _ => none

/-- whether `git_diff_index_to_workdir` (and `git_status`), run now by program `p`, says that the file is modified [src/libgit2/diff_generate.c:1465-1506]; a file that is not there is -/
def status (E : Env) (s : St) (p : Nat) : Option (Res Bool) :=
  match (s.mem p).entry, s.file with
  | none, _ => none
  | some _, none => some (.ok true)
  | some e, some f => some (maybeModified E e (s.mem p).stamp (statOf f) f.content >>= fun v => .ok v.modified)

/-- a history: every `Event` is the part of a function above that it names [src/libgit2/index.c:802-816, 1563-1617] -/
def run (E : Env) : List Event → St → Option St
  | [], s => some s
  | e :: es, s => match step E s e with
    | some s => run E es s
    | none => none

end Verif.Racy
