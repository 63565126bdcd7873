import Verif.Tree.Model
import Verif.Index.Model
/-! # Model of writing the index as a tree and of reading a tree into the index: `git_index_write_tree`, `git_index_read_tree`, `src/libgit2/tree-cache.c`

SHA-1 repositories and case sensitive indexes. The fuel of the recursive functions is the depth of the C recursion that is allowed (and the rounds of the loop of
`write_tree`): running out of it is `Res.ub`, a stack overflow. Not modelled: allocation failures, errors of the object database other than a missing object. -/
namespace Verif.IndexTree

/-- `GIT_EUNMERGED` [include/git2/errors.h:46] -/
def EUNMERGED : Int := -10
/-- `GIT_ENOTFOUND` [include/git2/errors.h:32] -/
def ENOTFOUND : Int := -3

/-- what does not change: `nameValid`, `pathValid` are the answers of `git_path_is_valid` for a name in a tree (tree.c:60-61) and for a path in the index (index.c:944);
`hash` is the hash of the map of a tree builder; `idOf` gives the id of a tree object from its bytes; `strict` is `git_object__strict_input_validation`; `isBlob`
tells whether an id is that of a blob in the object database [src/libgit2/object.c:580-602] -/
structure Env where
  nameValid : Bytes → Bool
  pathValid : Bytes → Bool
  hash : Bytes → Nat
  idOf : Bytes → Bytes
  strict : Bool
  isBlob : Bytes → Bool

/-- the tree objects of an object database, in the order in which they were written; an object that is written again stays what it was (`git_odb__freshen`), so the first one
with an id counts [src/libgit2/odb.c:1598-1641] -/
abbrev Odb := List (Bytes × Bytes)

/-- `git_odb_read` of a tree: src/libgit2/odb.c:1384-1410 -/
def readObj : Odb → Bytes → Option Bytes
  | [], _ => none
  | (i, b) :: odb, id => if i = id then some b else readObj odb id

/-- `git_odb_write`: src/libgit2/odb.c:1598-1641 -/
def writeObj (env : Env) (odb : Odb) (bytes : Bytes) : Bytes × Odb := (env.idOf bytes, odb ++ [(env.idOf bytes, bytes)])

/-- `git_object__is_valid`: src/libgit2/object.c:580-602, for a tree (2) or a blob -/
def objectValid (env : Env) (odb : Odb) (id : Bytes) (otype : Nat) : Bool :=
  ! env.strict || (if otype = 2 then (readObj odb id).isSome else env.isBlob id)

/-- what a tree builder asks [src/libgit2/tree.c:488-504] -/
def treeEnv (env : Env) (odb : Odb) : Tree.Env := ⟨env.nameValid, objectValid env odb, env.hash⟩

/-- `git_tree_lookup`: src/libgit2/object.c:182-274, tree.c:445-457 -/
def lookupTree (odb : Odb) (id : Bytes) : Res (List Tree.Entry) :=
  match readObj odb id with
  | none => .err ENOTFOUND
  | some b => Tree.parseRaw b

/-! ## The tree cache -/

/-- `struct git_tree_cache`: src/libgit2/tree-cache.h:17-27. `count` is `entry_count`, negative if the node is not valid. -/
inductive Cache where
  | mk (name : Bytes) (count : Int) (oid : Bytes) (children : List Cache)

/-- [src/libgit2/tree-cache.h:17-27] -/
def Cache.name : Cache → Bytes
  | .mk n _ _ _ => n
/-- [src/libgit2/tree-cache.h:17-27] -/
def Cache.count : Cache → Int
  | .mk _ c _ _ => c
/-- [src/libgit2/tree-cache.h:17-27] -/
def Cache.oid : Cache → Bytes
  | .mk _ _ o _ => o
/-- [src/libgit2/tree-cache.h:17-27] -/
def Cache.children : Cache → List Cache
  | .mk _ _ _ cs => cs

/-- the parts of a path, which the loops get to with `strchr(ptr, '/')`: src/libgit2/tree-cache.c:37-50, 61-73 -/
def parts : Bytes → List Bytes
  | [] => [[]]
  | c :: cs => if c = c!"/" then [] :: parts cs else
    match parts cs with
    | [] => [[c]]
    | w :: ws => (c :: w) :: ws

/-- `find_child`: src/libgit2/tree-cache.c:13-26 -/
def findChild (w : Bytes) : List Cache → Option Cache
  | [] => none
  | c :: cs => if c.name = w then some c else findChild w cs

/-- changing the child that `find_child` finds, in place [src/libgit2/tree-cache.c:43-48] -/
def changeChild (w : Bytes) (f : Cache → Cache) : List Cache → List Cache
  | [] => []
  | c :: cs => if c.name = w then f c :: cs else c :: changeChild w f cs

/-- `git_tree_cache_invalidate_path`: src/libgit2/tree-cache.c:28-51; the last part is not looked for -/
def invalidateParts : Cache → List Bytes → Cache
  | .mk n _ o cs, [] => .mk n (-1) o cs
  | .mk n _ o cs, [_] => .mk n (-1) o cs
  | .mk n _ o cs, w :: v :: ws => .mk n (-1) o (changeChild w (fun c => invalidateParts c (v :: ws)) cs)

/-- `git_tree_cache_invalidate_path`: src/libgit2/tree-cache.c:28-51 -/
def invalidate (cache : Option Cache) (path : Bytes) : Option Cache := cache.map (fun c => invalidateParts c (parts path))

/-- the loop of `git_tree_cache_get`: src/libgit2/tree-cache.c:61-73 (the test of `*end + 1` is never true) -/
def getParts : Cache → List Bytes → Option Cache
  | c, [] => some c
  | c, w :: ws => match findChild w c.children with
    | none => none
    | some c => getParts c ws

/-- `git_tree_cache_get`: src/libgit2/tree-cache.c:53-74 -/
def cacheGet (cache : Option Cache) (path : Bytes) : Option Cache := cache.bind (fun c => getParts c (parts path))

/-- the loop of `read_tree_recursive`: src/libgit2/tree-cache.c:196-226. The result: what is added to `entry_count`, and the children. `rd` is the recursive call.
`git_tree_entry_filemode(entry) == GIT_FILEMODE_TREE` is `git_tree_entry__is_tree` (tree.c:35-38). -/
def readChildren (odb : Odb) (rd : Bytes → Bytes → List Tree.Entry → Res Cache) : List Tree.Entry → Res (Int × List Cache)
  | [] => .ok (0, [])
  | e :: es =>
    if ¬ e.isTree then
      match readChildren odb rd es with
      | .ok (n, cs) => .ok (n + 1, cs)
      | .err x => .err x
      | .ub => .ub
    else match lookupTree odb e.oid with
      | .err x => .err x
      | .ub => .ub
      | .ok sub => match rd e.name e.oid sub with
        | .err x => .err x
        | .ub => .ub
        | .ok c => match readChildren odb rd es with
          | .ok (n, cs) => .ok (c.count + n, c :: cs)
          | .err x => .err x
          | .ub => .ub

/-- `git_tree_cache_new` and `read_tree_recursive`: src/libgit2/tree-cache.c:167-229, 247-268 -/
def readRec (odb : Odb) : Nat → Bytes → Bytes → List Tree.Entry → Res Cache
  | 0, _, _, _ => .ub
  | fuel + 1, name, id, es => match readChildren odb (readRec odb fuel) es with
    | .ok (n, cs) => .ok (.mk name n id cs)
    | .err x => .err x
    | .ub => .ub

/-- `git_tree_cache_read_tree`: src/libgit2/tree-cache.c:231-245 -/
def cacheReadTree (odb : Odb) (fuel : Nat) (id : Bytes) (es : List Tree.Entry) : Res Cache := readRec odb fuel [] id es

/-! ## Writing the index as a tree -/

/-- the test for leaving the directory, negated: src/libgit2/tree.c:466-468, 621-625 -/
def inDir (dirname path : Bytes) : Bool :=
  ¬ (path.length < dirname.length ∨ bcmp (path.take dirname.length) dirname ≠ 0 ∨ (0 < dirname.length ∧ Index.charAt path dirname.length ≠ c!"/"))

/-- `find_next_dir`: src/libgit2/tree.c:459-474. The entries from `start` on, and those from the result on. -/
def findNextDir (dirname : Bytes) : List Index.Entry → List Index.Entry
  | [] => []
  | e :: es => if inDir dirname e.path then findNextDir dirname es else e :: es

/-- `filename`: src/libgit2/tree.c:627-629 -/
def fileName (dirname path : Bytes) : Bytes :=
  let f := path.drop dirname.length
  if Index.charAt f 0 = c!"/" then f.drop 1 else f

/-- what follows the last slash: src/libgit2/tree.c:654-659 -/
def lastComp (subdir : Bytes) : Bytes := (subdir.reverse.takeWhile (· ≠ c!"/")).reverse

/-- `append_entry` with `validate`: src/libgit2/tree.c:559-584 -/
def append (env : Env) (odb : Odb) (bld : Tree.Bld) (name id : Bytes) (mode : Nat) : Res Tree.Bld :=
  if Tree.checkEntry (treeEnv env odb) name id mode then Tree.appendEntry (treeEnv env odb) bld ⟨mode % 65536, name, id⟩ else .err (-1)

/-- the beginning of `write_tree`: src/libgit2/tree.c:599-606; `rec` is the rest, for an empty tree builder -/
def enter (cache : Option Cache) (rec : Odb → Bytes → Tree.Bld → List Index.Entry → Res (Bytes × List Index.Entry × Odb)) (odb : Odb) (dirname : Bytes) (rest : List Index.Entry) :
    Res (Bytes × List Index.Entry × Odb) :=
  match cacheGet cache dirname with
  | some c => if 0 ≤ c.count then .ok (c.oid, findNextDir dirname rest, odb) else rec odb dirname HashMap.init rest
  | none => rec odb dirname HashMap.init rest

/-- the end of `write_tree`: src/libgit2/tree.c:674-678, 549-550 -/
def finish (env : Env) (odb : Odb) (bld : Tree.Bld) (rest : List Index.Entry) : Res (Bytes × List Index.Entry × Odb) :=
  match Tree.write bld with
  | .ok bytes => .ok ((writeObj env odb bytes).1, rest, (writeObj env odb bytes).2)
  | .err e => .err e
  | .ub => .ub

/-- the loop of `write_tree`: src/libgit2/tree.c:608-686. The index is given by the entries from `i` on. The result: the id, the entries from the returned position on, the
objects. When it fails the objects that it has written are not tracked. -/
def writeLoop (env : Env) (cache : Option Cache) : Nat → Odb → Bytes → Tree.Bld → List Index.Entry → Res (Bytes × List Index.Entry × Odb)
  | 0, _, _, _, _ => .ub
  | _ + 1, odb, _, bld, [] => finish env odb bld []
  | fuel + 1, odb, dirname, bld, e :: es =>
    if ¬ inDir dirname e.path then finish env odb bld (e :: es)
    else
      match (fileName dirname e.path).findIdx? (· = c!"/") with
      | none => match append env odb bld (fileName dirname e.path) e.id e.mode with
        | .ok bld => writeLoop env cache fuel odb dirname bld es
        | .err x => .err x
        | .ub => .ub
      | some k =>
        let subdir := e.path.take (e.path.length - (fileName dirname e.path).length + k)
        match enter cache (writeLoop env cache fuel) odb subdir (e :: es) with
        | .err x => .err x
        | .ub => .ub
        | .ok (sub, rest, odb) => match append env odb bld (lastComp subdir) sub 0o040000 with
          | .ok bld => writeLoop env cache fuel odb dirname bld rest
          | .err x => .err x
          | .ub => .ub

/-- an index and the object database it is used with [src/libgit2/index.h:29-62] -/
structure St where
  idx : Index.St
  cache : Option Cache
  odb : Odb

/-- `git_tree__write_index` after the tests: src/libgit2/tree.c:717-738 -/
def writeAll (env : Env) (fuel : Nat) (s : St) : St × Res Bytes :=
  match enter s.cache (writeLoop env s.cache fuel) s.odb [] s.idx.entries with
  | .err x => ({ s with cache := none }, .err x)
  | .ub => (s, .ub)
  | .ok (id, _, odb) => match lookupTree odb id with
    | .err x => (⟨s.idx, none, odb⟩, .err x)
    | .ub => (⟨s.idx, none, odb⟩, .ub)
    | .ok es => match cacheReadTree odb fuel id es with
      | .ok c => (⟨s.idx, some c, odb⟩, .ok id)
      | .err x => (⟨s.idx, none, odb⟩, .err x)
      | .ub => (⟨s.idx, none, odb⟩, .ub)

/-- `git_tree__write_index`: src/libgit2/tree.c:688-738 (called by `git_index_write_tree`, index.c:824-838) -/
def writeIndex (env : Env) (fuel : Nat) (s : St) : St × Res Bytes :=
  if Index.hasConflicts s.idx then (s, .err EUNMERGED)
  else match s.cache with
    | some c => if 0 ≤ c.count then (s, .ok c.oid) else writeAll env fuel s
    | none => writeAll env fuel s

/-! ## Reading a tree into the index -/

/-- `read_tree_cb`: src/libgit2/index.c:3283-3327. `none`: nothing to do for a directory. `root` is empty or ends with a slash (so `git_str_joinpath` appends). -/
def readTreeCb (env : Env) (old : Index.St) (root : Bytes) (t : Tree.Entry) : Res (Option Index.Entry) :=
  if t.isTree then .ok none
  else if ¬ env.pathValid (root ++ t.name) then .err (-1)
  else
    let e : Index.Entry := ⟨root ++ t.name, 0, t.attr, t.oid, []⟩
    match Index.find old (root ++ t.name) (some 0) with
    | .err x => .err x
    | .ub => .ub
    | .ok (false, _) => .ok (some e)
    | .ok (true, pos) => match old.entries[pos]? with
      | none => .ok (some e)
      | some o => if e.mode = o.mode ∧ e.id = o.id then .ok (some { o with path := e.path }) else .ok (some e)

/-- the loop of `tree_walk`, in post-order: src/libgit2/tree.c:988-1035, with `read_tree_cb`. The result: the entries that are inserted. `walk` is the recursive call. -/
def walkLoop (env : Env) (old : Index.St) (odb : Odb) (walk : Bytes → List Tree.Entry → Res (List Index.Entry)) (path : Bytes) : List Tree.Entry → Res (List Index.Entry)
  | [] => .ok []
  | t :: ts =>
    let sub : Res (List Index.Entry) :=
      if t.isTree then
        match lookupTree odb t.oid with
        | .err x => .err x
        | .ub => .ub
        | .ok es => walk (path ++ t.name ++ b!"/") es
      else .ok []
    match sub with
    | .err x => .err x
    | .ub => .ub
    | .ok l => match readTreeCb env old path t with
      | .err x => .err x
      | .ub => .ub
      | .ok o => match walkLoop env old odb walk path ts with
        | .err x => .err x
        | .ub => .ub
        | .ok l' => .ok (l ++ o.toList ++ l')

/-- `tree_walk`: src/libgit2/tree.c:977-1036 -/
def treeWalk (env : Env) (old : Index.St) (odb : Odb) : Nat → Bytes → List Tree.Entry → Res (List Index.Entry)
  | 0, _, _ => .ub
  | fuel + 1, path, es => walkLoop env old odb (treeWalk env old odb fuel) path es

/-- `entries_map` after `git_index_entrymap_put` of the entries: src/libgit2/index.c:3353-3358 -/
def mapOf : List Index.Entry → (Bytes → Nat → Option Index.Entry) → Bytes → Nat → Option Index.Entry
  | [], m => m
  | e :: es, m => mapOf es (Index.putmap m e)

/-- `git_index_read_tree`: src/libgit2/index.c:3329-3382; the tree is given by its id and entries. `git_vector_sort` is C26. -/
def readTree (env : Env) (fuel : Nat) (s : St) (id : Bytes) (es : List Tree.Entry) : St × Res Unit :=
  match treeWalk env s.idx s.odb fuel [] es with
  | .err x => (⟨s.idx, none, s.odb⟩, .err x)
  | .ub => (s, .ub)
  | .ok new => match Sort.tsort Index.entryCmp new with
    | .err x => (⟨s.idx, none, s.odb⟩, .err x)
    | .ub => (s, .ub)
    | .ok sorted => match cacheReadTree s.odb fuel id es with
      | .ok c => (⟨⟨sorted, mapOf new (fun _ _ => none)⟩, some c, s.odb⟩, .ok ())
      | .err x => (⟨⟨sorted, mapOf new (fun _ _ => none)⟩, none, s.odb⟩, .err x)
      | .ub => (s, .ub)

/-! ## Changing the index -/

/-- the paths that `index_remove_entry` (src/libgit2/index.c:510-533) invalidates when the index becomes another one: those of the entries that are not there any more. An
entry that is removed and added again in the same call would be invalidated, too; there is none. -/
def removedPaths (old new : Index.St) : List Bytes := (old.entries.filter (fun e => (new.emap e.path e.stage).isNone)).map (·.path)

/-- the cache after `git_index_add` [src/libgit2/index.c:1677-1696] or another call that adds nothing at stage 0 (`added` is empty) -/
def touch (cache : Option Cache) (old new : Index.St) (added : List Bytes) : Option Cache :=
  (removedPaths old new ++ added).foldl invalidate cache

end Verif.IndexTree
