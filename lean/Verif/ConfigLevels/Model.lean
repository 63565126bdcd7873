import Verif.ConfigFile.Props
import Verif.Sort.Props
/-! # Configurations made of several files: src/libgit2/config.c, config_snapshot.c

Backends live in a store and are named by numbers (their addresses), so that configurations may share them (`git_config_open_level`).
The C entries `backend_entry` are shared by pointer between the two vectors of a configuration; here each vector holds a copy and
`setWriteorder`, the only function that changes an entry, changes both (both vectors hold the same entries: `C36_reachable`).
Levels are small integers, so the subtractions of the comparison functions do not overflow; memory allocation succeeds. Reference counts,
locks and the included-file bookkeeping of the file backend are not modelled. -/
namespace Verif.ConfigLevels
open ConfigFile (Entry readEntries listGet normalizeName)

/-- GIT_ENOTFOUND, GIT_EEXISTS, GIT_EREADONLY: include/git2/errors.h -/
def ENOTFOUND : Int := -3
/-- [include/git2/errors.h:33] -/
def EEXISTS : Int := -4
/-- [include/git2/errors.h:72] -/
def EREADONLY : Int := -40
/-- GIT_CONFIG_LEVEL_XDG, _GLOBAL, GIT_CONFIG_HIGHEST_LEVEL: include/git2/config.h:64,70,97 -/
def XDG : Int := 3
/-- [include/git2/config.h:70] -/
def GLOBAL : Int := 4
/-- [include/git2/config.h:97] -/
def HIGHEST : Int := -1

/-- Where a backend has its entries: a file (config_file.c) or a list in memory (config_snapshot.c). -/
inductive Source where
  | file (content : Bytes)
  | memory (l : List Entry)
deriving DecidableEq

/-- `struct git_config_backend`: include/git2/sys/config.h:70-100 -/
structure Backend where
  src : Source
  readonly : Bool

/-- [the backends by instance: src/libgit2/config.c:30-49] -/
abbrev Store := Nat → Backend

/-- the entries a backend has now: src/libgit2/config_file.c:255-285 (refresh and take the list), src/libgit2/config_snapshot.c:26-43 -/
def readAll (b : Backend) : Res (List Entry) :=
  match b.src with
  | .file f => readEntries f
  | .memory l => .ok l

/-- `backend->get`: src/libgit2/config_file.c:339-361, src/libgit2/config_snapshot.c:45-70 -/
def backendGet (b : Backend) (key : Bytes) : Res (Option Bytes) :=
  match readAll b with
  | .err e => .err e
  | .ub => .ub
  | .ok l =>
    match listGet l key with
    | some v => .ok v
    | none => .err ENOTFOUND

/-- `backend->set`: src/libgit2/config_file.c:294-334, src/libgit2/config_snapshot.c:72-79 -/
def backendSet (b : Backend) (name value : Bytes) : Res Backend :=
  match b.src with
  | .file f =>
    match ConfigFile.set f name value with
    | .ok f => .ok { b with src := .file f }
    | .err e => .err e
    | .ub => .ub
  | .memory _ => .err (-1)

/-- `backend->del`: src/libgit2/config_file.c:392-416, src/libgit2/config_snapshot.c:101-107 -/
def backendDel (b : Backend) (name : Bytes) : Res Backend :=
  match b.src with
  | .file f =>
    match ConfigFile.delete f name with
    | .ok f => .ok { b with src := .file f }
    | .err e => .err e
    | .ub => .ub
  | .memory _ => .err (-1)

/-- `backend_entry`: src/libgit2/config.c:36-49 -/
structure BEntry where
  inst : Nat
  level : Int
  writeOrder : Int
deriving DecidableEq, Inhabited

/-- a `git_vector` of entries: its elements and the GIT_VECTOR_SORTED flag (the vector itself is C49) [src/util/vector.h:19-25] -/
structure EVec where
  items : List BEntry
  sorted : Bool
deriving DecidableEq

/-- `struct git_config`: src/libgit2/config.h:24-28 -/
structure Config where
  readers : EVec
  writers : EVec
deriving DecidableEq

/-- `reader_cmp`: src/libgit2/config.c:94-100 -/
def readerCmp (a b : BEntry) : Int := b.level - a.level
/-- `writer_cmp`: src/libgit2/config.c:102-108 -/
def writerCmp (a b : BEntry) : Int := b.writeOrder - a.writeOrder

/-- `git_config_new`: src/libgit2/config.c:110-127; `git_vector_init` sets the flag: src/util/vector.c:106-117 -/
def new : Config := ⟨⟨[], true⟩, ⟨[], true⟩⟩

/-- `git_vector_sort`: src/util/vector.c:185-193 -/
def vecSort (cmp : BEntry → BEntry → Int) (v : EVec) : Res EVec :=
  if v.sorted then .ok v
  else if v.items.length > 1 then Sort.tsort cmp v.items >>= fun l => .ok ⟨l, true⟩
  else .ok ⟨v.items, true⟩

/-- `git_vector_insert_sorted`: src/util/vector.c:150-183; `dup` tells whether there is a handler, which refuses with GIT_EEXISTS -/
def insertSorted (cmp : BEntry → BEntry → Int) (v : EVec) (x : BEntry) (dup : Bool) : Res EVec :=
  vecSort cmp v >>= fun v =>
  Sort.bsearch (cmp x) v.items >>= fun r =>
  if r.1 && dup then .err EEXISTS
  else .ok ⟨v.items.take r.2 ++ x :: v.items.drop r.2, v.sorted⟩

/-- the loops `git_vector_foreach … if (entry->level == level) { git_vector_remove(…); break; }`: src/libgit2/config.c:268-285 -/
def removeLevel (level : Int) : List BEntry → List BEntry
  | [] => []
  | e :: es => if e.level = level then es else e :: removeLevel level es

/-- `try_remove_existing_backend`: src/libgit2/config.c:261-288; removing keeps the flags: src/util/vector.c:245-262 -/
def tryRemove (c : Config) (level : Int) : Config :=
  if c.readers.items.any (fun e => e.level = level) then
    ⟨⟨removeLevel level c.readers.items, c.readers.sorted⟩, ⟨removeLevel level c.writers.items, c.writers.sorted⟩⟩
  else c

/-- `git_config__add_instance`: src/libgit2/config.c:290-321.  When it fails without `force` the configuration is as before. -/
def addInstance (c : Config) (inst : Nat) (level : Int) (force : Bool) : Res Config :=
  let c := if force then tryRemove c level else c
  insertSorted readerCmp c.readers ⟨inst, level, level⟩ true >>= fun r =>
  insertSorted writerCmp c.writers ⟨inst, level, level⟩ false >>= fun w =>
  .ok ⟨r, w⟩

/-- `git_config_add_backend`: src/libgit2/config.c:362-392; opening the backend reads it: src/libgit2/config_file.c:103-122 -/
def addBackend (st : Store) (c : Config) (inst : Nat) (level : Int) (force : Bool) : Res Config :=
  match readAll (st inst) with
  | .err e => .err e
  | .ub => .ub
  | .ok _ => addInstance c inst level force

/-- the inner loop of `git_config_set_writeorder`: src/libgit2/config.c:403-414 -/
def orderOf (levels : List Int) (level : Int) : Int :=
  match levels.findIdx? (· = level) with
  | some j => (j : Int)
  | none => -1

/-- `git_config_set_writeorder`: src/libgit2/config.c:394-422 -/
def setWriteorder (c : Config) (levels : List Int) : Res Config :=
  vecSort writerCmp ⟨c.writers.items.map fun e => { e with writeOrder := orderOf levels e.level }, c.writers.sorted⟩ >>= fun w =>
  .ok ⟨⟨c.readers.items.map fun e => { e with writeOrder := orderOf levels e.level }, c.readers.sorted⟩, w⟩

/-- `find_backend_by_level`: src/libgit2/config.c:216-249 -/
def findByLevel (c : Config) (level : Int) : Res Nat :=
  match (if level = HIGHEST then c.readers.items.head? else c.readers.items.find? (fun e => e.level = level)) with
  | some e => .ok e.inst
  | none => .err ENOTFOUND

/-- `git_config_open_level`: src/libgit2/config.c:337-360 -/
def openLevel (c : Config) (level : Int) : Res Config :=
  match findByLevel c level with
  | .ok i => addInstance new i level true
  | .err e => .err e
  | .ub => .ub

/-- `git_config_open_global`: src/libgit2/config.c:323-335 -/
def openGlobal (c : Config) : Res Config :=
  match openLevel c XDG with
  | .ok c' => .ok c'
  | .err e => if e ≠ ENOTFOUND then .err e else openLevel c GLOBAL
  | .ub => .ub

/-- the loop of `get_entry`: src/libgit2/config.c:806-817 -/
def getLoop (st : Store) (key : Bytes) : List BEntry → Res (Option Bytes)
  | [] => .err ENOTFOUND
  | e :: es =>
    match backendGet (st e.inst) key with
    | .ok v => .ok v
    | .err r => if r ≠ ENOTFOUND then .err r else getLoop st key es
    | .ub => .ub

/-- `git_config_get_entry`: src/libgit2/config.c:780-833 (with `get_entry`) -/
def get (st : Store) (c : Config) (name : Bytes) : Res (Option Bytes) :=
  match normalizeName name with
  | .err e => .err e
  | .ub => .ub
  | .ok key => getLoop st key c.readers.items

/-- `all_iter_next` called until it is over: from the last reader to the first, the entries of each: src/libgit2/config.c:431-487 -/
def iterLoop (st : Store) : List BEntry → Res (List Entry)
  | [] => .ok []
  | e :: es =>
    match readAll (st e.inst) with
    | .ok l => iterLoop st es >>= fun r => .ok (l ++ r)
    | .err r => if r = ENOTFOUND then iterLoop st es else .err r
    | .ub => .ub

/-- `git_config_iterator_new` and `git_config_next` until GIT_ITEROVER: src/libgit2/config.c:531-546 -/
def iterate (st : Store) (c : Config) : Res (List Entry) := iterLoop st c.readers.items.reverse

/-- `multivar_iter_next` called until it is over: src/libgit2/config.c:1096-1115.  `regex` is the compiled expression, if one was given; it is
applied to the value, and a variable without one has the value NULL, which `git_regexp_match` dereferences. -/
def multivarLoop (key : Bytes) (regex : Option (Bytes → Bool)) : List Entry → Res (List Entry)
  | [] => .ok []
  | e :: es =>
    if e.1 ≠ key then multivarLoop key regex es
    else
      match regex with
      | none => multivarLoop key regex es >>= fun r => .ok (e :: r)
      | some p =>
        match e.2 with
        | none => .ub
        | some v => if p v then multivarLoop key regex es >>= fun r => .ok (e :: r) else multivarLoop key regex es

/-- `git_config_get_multivar_foreach`: src/libgit2/config.c:1057-1086, 1129-1164 (with a callback that collects the entries) -/
def getMultivar (st : Store) (c : Config) (name : Bytes) (regex : Option (Bytes → Bool)) : Res (List Entry) :=
  match normalizeName name with
  | .err e => .err e
  | .ub => .ub
  | .ok key =>
    iterate st c >>= fun l => multivarLoop key regex l >>= fun r =>
    if r = [] then .err ENOTFOUND else .ok r

/-- `get_writer_instance`: src/libgit2/config.c:658-674 -/
def getWriter (st : Store) (c : Config) : Option Nat :=
  (c.writers.items.find? fun e => !(st e.inst).readonly && decide (0 ≤ e.writeOrder)).map (·.inst)

/-- the store with one backend replaced [the effect of src/libgit2/config.c:683-731] -/
def upd (st : Store) (i : Nat) (b : Backend) : Store := fun j => if j = i then b else st j

/-- `git_config_set_string`: src/libgit2/config.c:710-731 -/
def setString (st : Store) (c : Config) (name value : Bytes) : Res Store :=
  match getWriter st c with
  | none => .err EREADONLY
  | some i =>
    match backendSet (st i) name value with
    | .ok b => .ok (upd st i b)
    | .err e => .err e
    | .ub => .ub

/-- `git_config_delete_entry`: src/libgit2/config.c:683-691 -/
def deleteEntry (st : Store) (c : Config) (name : Bytes) : Res Store :=
  match getWriter st c with
  | none => .err EREADONLY
  | some i =>
    match backendDel (st i) name with
    | .ok b => .ok (upd st i b)
    | .err e => .err e
    | .ub => .ub

/-- the loop of `git_config_snapshot`: src/libgit2/config.c:195-206, config_snapshot.c:143-182.  The new backends get the addresses `fresh`,
`fresh + 1`, … -/
def snapshotLoop (fresh : Nat) (st : Store) (c : Config) : List BEntry → Res (Store × Config)
  | [] => .ok (st, c)
  | e :: es =>
    match readAll (st e.inst) with
    | .err r => .err r
    | .ub => .ub
    | .ok l =>
      addBackend (upd st fresh ⟨.memory l, true⟩) c fresh e.level false >>= fun c =>
      snapshotLoop (fresh + 1) (upd st fresh ⟨.memory l, true⟩) c es

/-- `git_config_snapshot`: src/libgit2/config.c:182-214 -/
def snapshot (fresh : Nat) (st : Store) (c : Config) : Res (Store × Config) :=
  snapshotLoop fresh st new c.readers.items >>= fun r =>
  setWriteorder r.2 [] >>= fun c => .ok (r.1, c)

end Verif.ConfigLevels
