import Verif.Oid.Model
import Verif.Oid.Spec
/-! # Model of `src/libgit2/odb.c`, `odb_pack.c` (lookup, refresh) and `odb_loose.c` (lookup): the object database over its backends

A backend is a state `σ` with the operations of `git_odb_backend` [include/git2/sys/odb_backend.h:27-103]. An operation that is NULL is one that answers `GIT_PASSTHROUGH` (so it is treated
in odb.c), except where it matters. Codes of errors are negative. The lock of the database is held throughout each loop; errors of the lock and out of memory are not modelled, nor is the
commit-graph. -/
namespace Verif.Odb

/-- `GIT_ENOTFOUND` [include/git2/errors.h:32] -/
def ENOTFOUND : Int := -3
/-- `GIT_EAMBIGUOUS` [include/git2/errors.h:34] -/
def EAMBIGUOUS : Int := -5
/-- `GIT_EINVALID` [include/git2/errors.h:57] -/
def EINVALID : Int := -21
/-- `GIT_PASSTHROUGH` [include/git2/errors.h:62] -/
def PASSTHROUGH : Int := -30
/-- `GIT_EMISMATCH` [include/git2/errors.h:65] -/
def EMISMATCH : Int := -33
/-- `GIT_OID_MINPREFIXLEN` [include/git2/oid.h:101] -/
def MINPREFIXLEN : Nat := 4

/-- an object: its type and its bytes (`git_rawobj`) [src/libgit2/odb.h:34-38] -/
structure Obj where
  type : Nat
  data : Bytes
  deriving DecidableEq, Repr

/-- the functions of a backend [include/git2/sys/odb_backend.h:27-103]. `stream`: whether a stream can be opened, none if it has no streams; `finish`: writing all into it and finishing it. -/
structure Ops (σ : Type) where
  canRefresh : σ → Bool
  read : σ → Bytes → σ × Res Obj
  readPrefix : σ → Bytes → Nat → σ × Res (Bytes × Obj)
  readHeader : σ → Bytes → σ × Res (Nat × Nat)
  has : σ → Bytes → σ × Bool
  hasPrefix : σ → Bytes → Nat → σ × Res Bytes
  refresh : σ → σ × Res Unit
  freshen : σ → Option (Bytes → σ × Res Unit)
  write : σ → Option (Bytes → Obj → σ × Res Unit)
  stream : σ → Option (Res Unit)
  finish : σ → Bytes → Obj → σ × Res Unit

/-- `backend_internal` [src/libgit2/odb.c:38-44] -/
structure Slot (σ : Type) where
  st : σ
  alternate : Bool

/-- `git_odb` [src/libgit2/odb.h:47-55]: the backends in their order and the cache, as the objects that are in it -/
structure Db (σ : Type) where
  slots : List (Slot σ)
  cache : List (Bytes × Obj)

/-- the size of ids, the hash of an object, whether objects are verified, the id of the empty tree [src/libgit2/odb.c:36, 60-66, 143-176] -/
structure Cfg where
  osz : Nat
  idOf : Obj → Bytes
  strict : Bool
  emptyTree : Bytes

/-- `git_oid_is_zero`: src/libgit2/oid.c:292-309 -/
def isZero (id : Bytes) : Bool := id.all (· = 0)

/-- `git_cache_get_raw`: src/libgit2/cache.c:224-227 -/
def cacheGet : List (Bytes × Obj) → Bytes → Option Obj
  | [], _ => none
  | (i, o) :: c, id => if i = id then some o else cacheGet c id

/-- `git_cache_store_raw`: src/libgit2/cache.c:212-216 (C38). What is there stays; that things are thrown out is another step. -/
def cacheStore (c : List (Bytes × Obj)) (id : Bytes) (o : Obj) : List (Bytes × Obj) × Obj :=
  match cacheGet c id with
  | some x => (c, x)
  | none => ((id, o) :: c, o)

variable {σ α : Type}

/-- the loop over the backends until one answers: src/libgit2/odb.c:1336-1356 (read), 1230-1255 (read_header), 929-938 (exists), 980-991 (freshen). `only`: `only_refreshed`; the last
part of the result: a backend answered `GIT_PASSTHROUGH`. -/
def firstLoop (ops : Ops σ) (only : Bool) (f : σ → σ × Res α) : List (Slot σ) → List (Slot σ) × Res α × Bool
  | [] => ([], .err ENOTFOUND, false)
  | s :: ss =>
    if only && !ops.canRefresh s.st then
      let r := firstLoop ops only f ss
      (s :: r.1, r.2)
    else match f s.st with
      | (t, .ok x) => (⟨t, s.alternate⟩ :: ss, .ok x, false)
      | (t, .ub) => (⟨t, s.alternate⟩ :: ss, .ub, false)
      | (t, .err e) =>
        if e = PASSTHROUGH ∨ e = ENOTFOUND then
          let r := firstLoop ops only f ss
          (⟨t, s.alternate⟩ :: r.1, r.2.1, r.2.2 || decide (e = PASSTHROUGH))
        else (⟨t, s.alternate⟩ :: ss, .err e, false)

/-- the loop over the backends for an abbreviated id: src/libgit2/odb.c:1054-1083 (exists), 1453-1500 (read) -/
def prefixLoop (ops : Ops σ) (only : Bool) (f : σ → σ × Res (Bytes × α)) : Option (Bytes × α) → List (Slot σ) → List (Slot σ) × Res (Bytes × α)
  | found, [] => ([], match found with
    | some x => .ok x
    | none => .err ENOTFOUND)
  | found, s :: ss =>
    if only && !ops.canRefresh s.st then
      let r := prefixLoop ops only f found ss
      (s :: r.1, r.2)
    else match f s.st with
      | (t, .ub) => (⟨t, s.alternate⟩ :: ss, .ub)
      | (t, .err e) =>
        if e = PASSTHROUGH ∨ e = ENOTFOUND then
          let r := prefixLoop ops only f found ss
          (⟨t, s.alternate⟩ :: r.1, r.2)
        else (⟨t, s.alternate⟩ :: ss, .err e)
      | (t, .ok x) =>
        if (match found with
          | some y => decide (y.1 ≠ x.1)
          | none => false) then (⟨t, s.alternate⟩ :: ss, .err EAMBIGUOUS)
        else
          let r := prefixLoop ops only f (some x) ss
          (⟨t, s.alternate⟩ :: r.1, r.2)

/-- the loop of `git_odb_refresh`: src/libgit2/odb.c:1918-1929 -/
def refreshLoop (ops : Ops σ) : List (Slot σ) → List (Slot σ) × Res Unit
  | [] => ([], .ok ())
  | s :: ss =>
    if !ops.canRefresh s.st then
      let r := refreshLoop ops ss
      (s :: r.1, r.2)
    else match ops.refresh s.st with
      | (t, .ok _) =>
        let r := refreshLoop ops ss
        (⟨t, s.alternate⟩ :: r.1, r.2)
      | (t, e) => (⟨t, s.alternate⟩ :: ss, e)

/-- `git_odb_refresh`: src/libgit2/odb.c:1907-1935 -/
def refresh (ops : Ops σ) (db : Db σ) : Db σ × Res Unit :=
  let r := refreshLoop ops db.slots
  (⟨r.1, db.cache⟩, r.2)

/-- what is done when nothing was found: `if (error == GIT_ENOTFOUND && !git_odb_refresh(db))` [src/libgit2/odb.c:1398-1401, 1284-1287, 1557-1560, 1120-1122] -/
def again (ops : Ops σ) (first : Db σ × Res α) (second : Db σ → Db σ × Res α) : Db σ × Res α :=
  if (match first.2 with
    | .err e => decide (e = ENOTFOUND)
    | _ => false) then
    match refresh ops first.1 with
    | (db, .ok _) => second db
    | (db, _) => (db, .err ENOTFOUND)
  else first

/-- what becomes of an object that was found: src/libgit2/odb.c:1361-1381, 1504-1527 -/
def finishRead (cfg : Cfg) (cache : List (Bytes × Obj)) (slots : List (Slot σ)) (id : Bytes) (o : Obj) : Db σ × Res Obj :=
  if cfg.strict && decide (cfg.idOf o ≠ id) then (⟨slots, cache⟩, .err EMISMATCH)
  else (⟨slots, (cacheStore cache id o).1⟩, .ok (cacheStore cache id o).2)

/-- `odb_read_1`: src/libgit2/odb.c:1313-1382, with `odb_read_hardcoded` (68-84) -/
def read1 (cfg : Cfg) (ops : Ops σ) (id : Bytes) (only : Bool) (db : Db σ) : Db σ × Res Obj :=
  if !only && decide (id = cfg.emptyTree) then finishRead cfg db.cache db.slots id ⟨2, []⟩
  else match firstLoop ops only (fun s => ops.read s id) db.slots with
    | (slots, .ok o, _) => finishRead cfg db.cache slots id o
    | (slots, .err e, _) => (⟨slots, db.cache⟩, .err e)
    | (slots, .ub, _) => (⟨slots, db.cache⟩, .ub)

/-- `git_odb_read`: src/libgit2/odb.c:1384-1408 -/
def read (cfg : Cfg) (ops : Ops σ) (db : Db σ) (id : Bytes) : Db σ × Res Obj :=
  if isZero id then (db, .err ENOTFOUND)
  else match cacheGet db.cache id with
    | some o => (db, .ok o)
    | none => again ops (read1 cfg ops id false db) (read1 cfg ops id true)

/-- `odb_exists_1`: src/libgit2/odb.c:915-941 -/
def exists1 (ops : Ops σ) (id : Bytes) (only : Bool) (db : Db σ) : Db σ × Bool :=
  let r := firstLoop ops only (fun s => ((ops.has s id).1, if (ops.has s id).2 then (.ok () : Res Unit) else .err ENOTFOUND)) db.slots
  (⟨r.1, db.cache⟩, match r.2.1 with
    | .ok _ => true
    | _ => false)

/-- `git_odb_exists`: src/libgit2/odb.c:1011-1039 (without GIT_ODB_LOOKUP_NO_REFRESH) -/
def exists' (ops : Ops σ) (db : Db σ) (id : Bytes) : Db σ × Bool :=
  if isZero id then (db, false)
  else if (cacheGet db.cache id).isSome then (db, true)
  else match exists1 ops id false db with
    | (db, true) => (db, true)
    | (db, false) => match refresh ops db with
      | (db, .ok _) => exists1 ops id true db
      | (db, _) => (db, false)

/-- `odb_read_header_1`: src/libgit2/odb.c:1211-1258. The result: length and type. -/
def readHeader1 (cfg : Cfg) (ops : Ops σ) (id : Bytes) (only : Bool) (db : Db σ) : Db σ × Res (Nat × Nat) :=
  if !only && decide (id = cfg.emptyTree) then (db, .ok (0, 2))
  else match firstLoop ops only (fun s => ops.readHeader s id) db.slots with
    | (slots, .err e, pass) => (⟨slots, db.cache⟩, .err (if e = ENOTFOUND ∧ pass = true then PASSTHROUGH else e))
    | (slots, r, _) => (⟨slots, db.cache⟩, r)

/-- `git_odb__read_header_or_object`, `git_odb_read_header`: src/libgit2/odb.c:1198-1209, 1260-1311 -/
def readHeader (cfg : Cfg) (ops : Ops σ) (db : Db σ) (id : Bytes) : Db σ × Res (Nat × Nat) :=
  if isZero id then (db, .err ENOTFOUND)
  else match cacheGet db.cache id with
    | some o => (db, .ok (o.data.length, o.type))
    | none =>
      let r := again ops (readHeader1 cfg ops id false db) (readHeader1 cfg ops id true)
      if (match r.2 with
        | .err e => decide (e = PASSTHROUGH)
        | _ => false) then
        match read cfg ops r.1 id with
        | (db, .ok o) => (db, .ok (o.data.length, o.type))
        | (db, .err e) => (db, .err e)
        | (db, .ub) => (db, .ub)
      else r

/-- `git_oid__cpy_prefix`: src/libgit2/oid.h:234-245. The copy is made into zeros. Digits beyond `len` become zero. -/
def cpyPrefix (osz : Nat) (id : Bytes) (len : Nat) : Bytes :=
  let b := id.take ((len + 1) / 2)
  let b := if len % 2 = 1 then b.take (len / 2) ++ (b.drop (len / 2)).map (fun c => c &&& 0xF0) else b
  b ++ List.replicate (osz - b.length) 0

/-- `read_prefix_1`: src/libgit2/odb.c:1437-1528 -/
def readPrefix1 (cfg : Cfg) (ops : Ops σ) (key : Bytes) (len : Nat) (only : Bool) (db : Db σ) : Db σ × Res (Bytes × Obj) :=
  match prefixLoop ops only (fun s => ops.readPrefix s key len) none db.slots with
  | (slots, .ok (i, o)) => match finishRead cfg db.cache slots i o with
    | (db, .ok o) => (db, .ok (i, o))
    | (db, .err e) => (db, .err e)
    | (db, .ub) => (db, .ub)
  | (slots, .err e) => (⟨slots, db.cache⟩, .err e)
  | (slots, .ub) => (⟨slots, db.cache⟩, .ub)

/-- `git_odb_read_prefix`: src/libgit2/odb.c:1530-1565. The object and its id. -/
def readPrefix (cfg : Cfg) (ops : Ops σ) (db : Db σ) (short : Bytes) (len : Nat) : Db σ × Res (Bytes × Obj) :=
  if len < MINPREFIXLEN then (db, .err EAMBIGUOUS)
  else
    let n := min len (2 * cfg.osz)
    match (if n = 2 * cfg.osz then cacheGet db.cache short else none) with
    | some o => (db, .ok (short, o))
    | none => again ops (readPrefix1 cfg ops (cpyPrefix cfg.osz short n) n false db) (readPrefix1 cfg ops (cpyPrefix cfg.osz short n) n true)

/-- `odb_exists_prefix_1`: src/libgit2/odb.c:1041-1091 -/
def existsPrefix1 (ops : Ops σ) (key : Bytes) (len : Nat) (only : Bool) (db : Db σ) : Db σ × Res Bytes :=
  match prefixLoop ops only (fun s => match ops.hasPrefix s key len with
      | (t, .ok i) => (t, .ok (i, ()))
      | (t, .err e) => (t, .err e)
      | (t, .ub) => (t, .ub)) none db.slots with
  | (slots, .ok (i, _)) => (⟨slots, db.cache⟩, .ok i)
  | (slots, .err e) => (⟨slots, db.cache⟩, .err e)
  | (slots, .ub) => (⟨slots, db.cache⟩, .ub)

/-- `git_odb_exists_prefix`: src/libgit2/odb.c:1093-1127 -/
def existsPrefix (cfg : Cfg) (ops : Ops σ) (db : Db σ) (short : Bytes) (len : Nat) : Db σ × Res Bytes :=
  if len < MINPREFIXLEN then (db, .err EAMBIGUOUS)
  else if len ≥ 2 * cfg.osz then
    match exists' ops db short with
    | (db, true) => (db, .ok short)
    | (db, false) => (db, .err ENOTFOUND)
  else again ops (existsPrefix1 ops (cpyPrefix cfg.osz short len) len false db) (existsPrefix1 ops (cpyPrefix cfg.osz short len) len true)

/-- what is asked of one backend: `freshen`, or else `exists` [src/libgit2/odb.c:986-989] -/
def touch (ops : Ops σ) (s : σ) (id : Bytes) : σ × Res Unit :=
  match ops.freshen s with
  | some g => ((g id).1, match (g id).2 with
    | .ok _ => .ok ()
    | _ => .err ENOTFOUND)
  | none => ((ops.has s id).1, if (ops.has s id).2 then .ok () else .err ENOTFOUND)

/-- `odb_freshen_1`: src/libgit2/odb.c:966-994 -/
def freshen1 (ops : Ops σ) (id : Bytes) (only : Bool) (db : Db σ) : Db σ × Bool :=
  let r := firstLoop ops only (fun s => touch ops s id) db.slots
  (⟨r.1, db.cache⟩, match r.2.1 with
    | .ok _ => true
    | _ => false)

/-- `git_odb__freshen`: src/libgit2/odb.c:996-1009 -/
def freshen (ops : Ops σ) (db : Db σ) (id : Bytes) : Db σ × Bool :=
  match freshen1 ops id false db with
  | (db, true) => (db, true)
  | (db, false) => match refresh ops db with
    | (db, .ok _) => freshen1 ops id true db
    | (db, _) => (db, false)

/-- the loop of `git_odb_write`: src/libgit2/odb.c:1619-1629. The last argument is `error`. -/
def writeLoop (ops : Ops σ) (id : Bytes) (o : Obj) : List (Slot σ) → Int → List (Slot σ) × Res Unit
  | [], e => ([], .err e)
  | s :: ss, e => match (if s.alternate then none else ops.write s.st) with
    | none =>
      let r := writeLoop ops id o ss e
      (s :: r.1, r.2)
    | some f => match f id o with
      | (t, .ok _) => (⟨t, s.alternate⟩ :: ss, .ok ())
      | (t, .ub) => (⟨t, s.alternate⟩ :: ss, .ub)
      | (t, .err e) =>
        let r := writeLoop ops id o ss e
        (⟨t, s.alternate⟩ :: r.1, r.2)

/-- opening a stream of a backend: its own, or that which writes all at the end [src/libgit2/odb.c:1687-1693, 464-500] -/
def openStream (ops : Ops σ) (s : σ) : Option (Res Unit) :=
  match ops.stream s with
  | some r => some r
  | none => if (ops.write s).isSome then some (.ok ()) else none

/-- writing all into the stream that was opened, and finishing it [src/libgit2/odb.c:1642-1644, 446-462] -/
def finishStream (ops : Ops σ) (s : σ) (id : Bytes) (o : Obj) : σ × Res Unit :=
  match ops.stream s with
  | some _ => ops.finish s id o
  | none => match ops.write s with
    | some f => f id o
    | none => (s, .ub)

/-- the stream that is opened and what is done with it: src/libgit2/odb.c:1639-1648, 1664-1705. If the last backend answers `GIT_PASSTHROUGH` the code is 0 although there is no stream. -/
def streamLoop (ops : Ops σ) (id : Bytes) (o : Obj) : List (Slot σ) → Int → List (Slot σ) × Res Unit
  | [], e => ([], if e = PASSTHROUGH then .ub else .err e)
  | s :: ss, e => match (if s.alternate then none else openStream ops s.st) with
    | none =>
      let r := streamLoop ops id o ss e
      (s :: r.1, r.2)
    | some (.ok _) => (⟨(finishStream ops s.st id o).1, s.alternate⟩ :: ss, (finishStream ops s.st id o).2)
    | some .ub => (s :: ss, .ub)
    | some (.err e) =>
      let r := streamLoop ops id o ss e
      (s :: r.1, r.2)

/-- `git_odb_write`: src/libgit2/odb.c:1598-1649 -/
def write (cfg : Cfg) (ops : Ops σ) (db : Db σ) (o : Obj) : Db σ × Res Bytes :=
  if isZero (cfg.idOf o) then (db, .err EINVALID)
  else match freshen ops db (cfg.idOf o) with
    | (db, true) => (db, .ok (cfg.idOf o))
    | (db, false) => match writeLoop ops (cfg.idOf o) o db.slots (-1) with
      | (slots, .ok _) => (⟨slots, db.cache⟩, .ok (cfg.idOf o))
      | (slots, .ub) => (⟨slots, db.cache⟩, .ub)
      | (slots, .err e) =>
        if e = PASSTHROUGH then (⟨slots, db.cache⟩, .ok (cfg.idOf o))
        else match streamLoop ops (cfg.idOf o) o slots (-1) with
          | (slots, .ok _) => (⟨slots, db.cache⟩, .ok (cfg.idOf o))
          | (slots, .err e) => (⟨slots, db.cache⟩, .err e)
          | (slots, .ub) => (⟨slots, db.cache⟩, .ub)

end Verif.Odb
