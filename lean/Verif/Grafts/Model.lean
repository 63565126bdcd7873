import Verif.Grafts.Spec
import Verif.HashMap.Spec
import Verif.Mailmap.Model
import Verif.Oid.Model
/-! # Model of `src/libgit2/grafts.c`, and of what uses it in `src/libgit2/repository.c` and `src/libgit2/commit.c`

The hash table is the list of its bindings (that it behaves like that is C25). `sha` is SHA-256. Files are replaced atomically (C17). Allocation
failure is not modelled, nor a file that exists and cannot be read. -/
namespace Verif.Grafts
open Mailmap (Ctx ctxInit advanceLine advanceChars)
open HashMap.Spec (lookup step Op)

/-- `git_grafts_oidmap`: src/libgit2/grafts.c:15 -/
abbrev Map := List (Bytes × List Bytes)

/-- `struct git_grafts`, without the path: src/libgit2/grafts.c:17-27 -/
structure Grafts where
  map : Map
  sum : Bytes
  deriving DecidableEq, Repr

/-! ## The parser -/

/-- `git_parse_advance_oid`: src/libgit2/parse.c:104-116 -/
def advanceOid (size : Nat) (ctx : Ctx) : Res (Bytes × Ctx) :=
  if ctx.line.length < 2 * size then .err (-1)
  else
    match Oid.fromPrefix size ctx.line (2 * size) with
    | .ok id => .ok (id, advanceChars ctx (2 * size))
    | .err _ => .err (-1)
    | .ub => .ub

/-- `git_parse_advance_expected`: src/libgit2/parse.c:50-63 -/
def advanceExpected (ctx : Ctx) (s : Bytes) : Option Ctx :=
  if ctx.line.length < s.length then none
  else if ctx.line.take s.length ≠ s then none
  else some (advanceChars ctx s.length)

/-- the parents of a line: src/libgit2/grafts.c:159-168. Running out of fuel is `ub`. -/
def parentsLoop (size : Nat) : Nat → Ctx → List Bytes → Res (List Bytes × Ctx)
  | 0, _, _ => .ub
  | fuel + 1, ctx, ps =>
    if ctx.line.length = 0 then .ok (ps, ctx)
    else
      match advanceExpected ctx b!"\n" with
      | some ctx => .ok (ps, ctx)
      | none =>
        match advanceExpected ctx b!" " with
        | none => .err (-1)
        | some ctx => advanceOid size ctx >>= fun r => parentsLoop size fuel r.2 (ps ++ [r.1])

/-- `git_grafts_add` and `git_grafts_remove`: src/libgit2/grafts.c:183-235 -/
def add (m : Map) (oid : Bytes) (parents : List Bytes) : Map := step (step m (.remove oid)) (.put oid parents)

/-- the loop over the lines: src/libgit2/grafts.c:151-180. What the map is then, and the code. Running out of fuel is `ub`. -/
def parseLoop (size : Nat) : Nat → Ctx → Map → Res (Map × Int)
  | 0, _, _ => .ub
  | fuel + 1, ctx, m =>
    if ctx.line.length + ctx.rest.length = 0 then .ok (m, 0)
    else
      match advanceOid size ctx with
      | .ub => .ub
      | .err e => .ok (m, e)
      | .ok r =>
        match parentsLoop size (r.2.line.length + 1) r.2 [] with
        | .ub => .ub
        | .err e => .ok (m, e)
        | .ok p => parseLoop size fuel (advanceLine p.2) (add m r.1 p.1)

/-- `git_grafts_parse`: src/libgit2/grafts.c:142-181. The map is cleared first. -/
def parse (size : Nat) (buf : Bytes) : Res (Map × Int) := parseLoop size (buf.length + 1) (ctxInit buf) []

/-! ## The file -/

/-- `git_grafts_new`: src/libgit2/grafts.c:29-42 -/
def new : Grafts := ⟨[], List.replicate 32 0⟩

/-- `git_grafts_refresh`: src/libgit2/grafts.c:110-140; `git_futils_readbuffer_updated`: src/util/futils.c:221-296. `file` is what is in the file,
`none` if there is none. -/
def refresh (sha : Bytes → Bytes) (size : Nat) (g : Grafts) (file : Option Bytes) : Res (Grafts × Int) :=
  match file with
  | none => .ok ({ g with map := [] }, 0)
  | some buf =>
    if g.sum = sha buf then .ok (g, 0)
    else
      match parse size buf with
      | .ok p => .ok (⟨p.1, sha buf⟩, p.2)
      | .err e => .err e
      | .ub => .ub

/-- the file is looked at again and again, whatever the codes are; the last code [no code: src/libgit2/grafts.c:110-140 repeated] -/
def lookAll (sha : Bytes → Bytes) (size : Nat) : Grafts → Int → List (Option Bytes) → Res (Grafts × Int)
  | g, c, [] => .ok (g, c)
  | g, _, f :: fs => refresh sha size g f >>= fun r => lookAll sha size r.1 r.2 fs

/-- `git_grafts_open_or_refresh` and `git_grafts_open`: src/libgit2/grafts.c:44-79. If opening fails, the pointer stays NULL. -/
def openOrRefresh (sha : Bytes → Bytes) (size : Nat) (g : Option Grafts) (file : Option Bytes) : Res (Option Grafts × Int) :=
  match g with
  | some g => refresh sha size g file >>= fun r => .ok (some r.1, r.2)
  | none => refresh sha size new file >>= fun r => if r.2 < 0 then .ok (none, r.2) else .ok (some r.1, 0)

/-- `git_grafts_oids`: src/libgit2/grafts.c:243-265. In which order a hash table is gone through is not said. -/
def oids (g : Grafts) : List Bytes := g.map.map (·.1)

/-! ## The repository -/

/-- the files `info/grafts` and `shallow` of a repository, and what a `git_repository` has in `grafts` and `shallow_grafts`
[src/libgit2/repository.h:165-166] -/
structure Repo where
  graftsFile : Option Bytes
  shallowFile : Option Bytes
  grafts : Option Grafts
  shallow : Option Grafts
  deriving DecidableEq, Repr

/-- loading, when nothing or only one was loaded before, or after the refresh of both: src/libgit2/repository.c:906-919 -/
def openBoth (sha : Bytes → Bytes) (size : Nat) (r : Repo) : Res (Repo × Int) :=
  openOrRefresh sha size r.grafts r.graftsFile >>= fun a =>
  if a.2 < 0 then .ok ({ r with grafts := a.1 }, a.2)
  else openOrRefresh sha size r.shallow r.shallowFile >>= fun b => .ok ({ r with grafts := a.1, shallow := b.1 }, b.2)

/-- `load_grafts`: src/libgit2/repository.c:879-920; the repository has a directory -/
def loadGrafts (sha : Bytes → Bytes) (size : Nat) (r : Repo) : Res (Repo × Int) :=
  match r.grafts, r.shallow with
  | some g, some s =>
    refresh sha size g r.graftsFile >>= fun a =>
    if a.2 < 0 then .ok ({ r with grafts := some a.1 }, a.2)
    else
      refresh sha size s r.shallowFile >>= fun b =>
      if b.2 < 0 then .ok ({ r with grafts := some a.1, shallow := some b.1 }, b.2)
      else openBoth sha size { r with grafts := some a.1, shallow := some b.1 }
  | _, _ => openBoth sha size r

/-- opening a repository, as far as these files go: src/libgit2/repository.c:1155-1156 (the files are `info/grafts` and `shallow`) -/
def openRepo (sha : Bytes → Bytes) (size : Nat) (graftsFile shallowFile : Option Bytes) : Res (Repo × Int) :=
  loadGrafts sha size ⟨graftsFile, shallowFile, none, none⟩

/-- `git_repository__shallow_roots`, if the grafts are loaded: src/libgit2/repository.c:3798-3804 -/
def refreshRoots (sha : Bytes → Bytes) (size : Nat) (r : Repo) : Res (Repo × Int × List Bytes) :=
  match r.shallow with
  | none => .ok (r, -1, [])
  | some s =>
    refresh sha size s r.shallowFile >>= fun b =>
    if b.2 < 0 then .ok ({ r with shallow := some b.1 }, b.2, []) else .ok ({ r with shallow := some b.1 }, 0, oids b.1)

/-- `git_repository__shallow_roots`: src/libgit2/repository.c:3788-3805 -/
def shallowRoots (sha : Bytes → Bytes) (size : Nat) (r : Repo) : Res (Repo × Int × List Bytes) :=
  match r.shallow with
  | none => loadGrafts sha size r >>= fun a => if a.2 < 0 then .ok (a.1, a.2, []) else refreshRoots sha size a.1
  | some _ => refreshRoots sha size r

/-- what is written to the file: src/libgit2/repository.c:3826-3830 -/
def rootsText (size : Nat) : List Bytes → Res Bytes
  | [] => .ok []
  | id :: ids => Oid.tostr size 65 (some id) >>= fun t => rootsText size ids >>= fun b => .ok (t.take (2 * size) ++ b!"\n" ++ b)

/-- after the file was written: src/libgit2/repository.c:3834-3840 -/
def afterWrite (sha : Bytes → Bytes) (size : Nat) (r : Repo) (roots : List Bytes) : Res (Repo × Int) :=
  loadGrafts sha size r >>= fun a =>
  if a.2 < 0 then .ok (a.1, -1)
  else if roots.length = 0 then .ok ({ a.1 with shallowFile := none }, 0)
  else .ok (a.1, 0)

/-- `git_repository__shallow_roots_write`: src/libgit2/repository.c:3807-3846. `placed` is whether `git_filebuf_commit` succeeds, which is not looked at. -/
def shallowRootsWrite (sha : Bytes → Bytes) (size : Nat) (r : Repo) (roots : List Bytes) (placed : Bool) : Res (Repo × Int) :=
  rootsText size roots >>= fun text => afterWrite sha size (if placed then { r with shallowFile := some text } else r) roots

/-- `git_repository_is_shallow`: src/libgit2/repository.c:3848-3869 -/
def isShallow (r : Repo) : Int :=
  match r.shallowFile with
  | none => 0
  | some c => if c.length = 0 then 0 else 1

/-- `git_grafts_get`: src/libgit2/grafts.c:237-241. `none` if it returns an error. -/
def get (g : Option Grafts) (oid : Bytes) : Option (List Bytes) := g.bind fun g => lookup g.map oid

/-- the parents of a commit object that has the parents `own`: `git_commit__parse_ext`, src/libgit2/commit.c:548-567, 532-546 -/
def commitParents (r : Repo) (oid : Bytes) (own : List Bytes) : List Bytes :=
  match get r.grafts oid with
  | some ps => ps
  | none =>
    match get r.shallow oid with
    | some ps => ps
    | none => own

/-- one event: the callers are src/libgit2/fetch.c:196-199, 223 -/
def event (sha : Bytes → Bytes) (size : Nat) (r : Repo) : Spec.Event → Res Repo
  | .graftsFile f => .ok { r with graftsFile := f }
  | .shallowFile f => .ok { r with shallowFile := f }
  | .roots => shallowRoots sha size r >>= fun a => .ok a.1
  | .store roots placed => shallowRootsWrite sha size r roots placed >>= fun a => .ok a.1

/-- a history [no code: `event` repeated, src/libgit2/fetch.c:196-199, 223] -/
def events (sha : Bytes → Bytes) (size : Nat) : Repo → List Spec.Event → Res Repo
  | r, [] => .ok r
  | r, e :: es => event sha size r e >>= fun r => events sha size r es

/-- what is in memory comes from looking at these files, one after the other [no code: a state that src/libgit2/grafts.c:110-140 can reach] -/
def Looked (sha : Bytes → Bytes) (size : Nat) (g : Option Grafts) (files : List (Option Bytes)) : Prop :=
  ∃ g' c, g = some g' ∧ lookAll sha size new 0 files = .ok (g', c)

end Verif.Grafts
