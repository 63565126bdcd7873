import Verif.Cmp
import Verif.Ignore.Model
import Verif.Wildmatch.Model
/-! # Model of the tree iterator and of the diff of two trees: `src/libgit2/iterator.c`, `diff_generate.c`, `pathspec.c`

Case-sensitive iteration only (`GIT_ITERATOR_DONT_IGNORE_CASE`, what `git_diff_tree_to_tree` uses unless GIT_DIFF_IGNORE_CASE is given), so directories that only differ in case
are not put together (`tree_iterator_frame_push_neighbors`). Texts are the bytes before the terminating NUL. Not modelled: allocation failures, `advance_into` and `advance_over`,
callbacks (`notify_cb`, `progress_cb`), configuration, the sizes and the GIT_DIFF_FLAG_VALID_ID flags of files. -/
namespace Verif.TreeDiff

/-! ## Trees -/

/-- `git_tree_entry` [src/libgit2/tree.h:18-23] -/
structure Entry where
  name : Bytes
  mode : Nat
  id : Bytes
  deriving DecidableEq, Repr

/-- `GIT_MODE_TYPE`: src/util/futils.h:287-288, the type bits (`S_IFMT`) of a mode, which is 16 bits; shifted -/
def modeType (mode : Nat) : Nat := mode / 0o10000 % 16

/-- `git_tree_entry__is_tree`: src/libgit2/tree.h:39-42 -/
def Entry.isTree (e : Entry) : Bool := modeType e.mode = 0o4

/-- the objects: what `git_tree_lookup` gives for an id, the entries of the tree in their order (`none`: it fails) [src/libgit2/object_api.c] -/
abbrev Store := Bytes → Option (List Entry)

/-- `git_index_entry`, what an iterator of a tree sets [src/libgit2/iterator.c:736-750] -/
structure Item where
  path : Bytes
  mode : Nat
  id : Bytes
  deriving DecidableEq, Repr

/-! ## The iterator -/

/-- `git_iterator_options` [src/libgit2/iterator.h:55-69, 20-46] -/
structure Options where
  includeTrees : Bool
  dontAutoexpand : Bool
  start : Option Bytes
  stop : Option Bytes
  pathlist : List Bytes

/-- the options an iterator keeps [src/libgit2/iterator.h:83-106]; `pathlist` is sorted -/
structure Opts where
  includeTrees : Bool
  autoexpand : Bool
  start : Option Bytes
  stop : Option Bytes
  pathlist : List Bytes
  deriving DecidableEq, Repr

/-- one insertion of `sortPaths` [src/util/vector.c:346-354] -/
def insertPath (p : Bytes) : List Bytes → List Bytes
  | [] => [p]
  | q :: qs => if bcmp p q ≤ 0 then p :: q :: qs else q :: insertPath p qs

/-- `git_vector_sort` with `git__strcmp_cb`: src/util/vector.c:346-354. That it sorts is C26; texts that compare equal are equal, so there is only one result. -/
def sortPaths : List Bytes → List Bytes
  | [] => []
  | p :: ps => insertPath p (sortPaths ps)

/-- a text that is given and not empty: src/libgit2/iterator.c:51-63 -/
def nonEmpty : Option Bytes → Option Bytes
  | some [] => none
  | s => s

/-- `iterator_init_common`, `iterator_range_init`, `iterator_pathlist_init`: src/libgit2/iterator.c:48-69, 91-109, 153-167; the pathlist is sorted when it is first used (:239) -/
def initCommon (o : Options) : Opts :=
  ⟨o.includeTrees || o.dontAutoexpand, !o.dontAutoexpand, nonEmpty o.start, nonEmpty o.stop, sortPaths o.pathlist⟩

/-- `tree_iterator_frame`: its path and the entries from `next_idx` on [src/libgit2/iterator.c:425-446] -/
structure Frame where
  path : Bytes
  entries : List Entry
  deriving DecidableEq, Repr

/-- `tree_iterator` [src/libgit2/iterator.c:448-459, iterator.h:83-106]; the last frame is first. `last` is `entry`. -/
structure Iter where
  frames : List Frame
  started : Bool
  ended : Bool
  walk : Nat
  accessed : Bool
  last : Option Item
  deriving DecidableEq, Repr

/-- `git_iterator_for_tree`, `tree_iterator_init`: src/libgit2/iterator.c:908-920, 938-978; a null tree has an iterator of nothing -/
def newIter (o : Opts) : Option (List Entry) → Iter
  | none => ⟨[], o.start.isNone, false, 0, false, none⟩
  | some es => ⟨[⟨[], es⟩], o.start.isNone, false, 0, false, none⟩

/-- `git__prefixcmp`: src/util/util.c:241-255; the sign of the result -/
def prefixcmp : Bytes → Bytes → Int
  | _, [] => 0
  | [], _ :: _ => -1
  | s :: ss, p :: ps => if s = p then prefixcmp ss ps else if s < p then -1 else 1

/-- `tree_iterator_compute_path`: src/libgit2/iterator.c:517-535. The path of a frame ends with a slash (or is empty), and names do not begin with one, so that `git_str_joinpath`
only appends. -/
def computePath (parent : Bytes) (e : Entry) : Bytes := parent ++ e.name ++ (if e.isTree then b!"/" else [])

/-- `iterator_has_started`: src/libgit2/iterator.c:178-213, for something that is not a submodule. The result, and the new `started`. -/
def hasStarted (o : Opts) (started : Bool) (path : Bytes) : Bool × Bool :=
  match o.start with
  | none => (true, started)
  | some s =>
    if started then (true, true)
    else if 0 ≤ prefixcmp path s then (true, true)
    else (decide (path.getLast? = some c!"/" ∧ s.take path.length = path), false)

/-- `iterator_has_ended`: src/libgit2/iterator.c:215-224; the result is the new `ended` too -/
def hasEnded (o : Opts) (ended : Bool) (path : Bytes) : Bool :=
  match o.stop with
  | none => false
  | some e => ended || decide (0 < prefixcmp path e)

/-- a path without a slash at its end, as far as the comparison goes: src/libgit2/iterator.c:241-245, 251-252 -/
def bareLen (p : Bytes) : Nat := if p.getLast? = some c!"/" then p.length - 1 else p.length

/-- the loop of `iterator_pathlist_next_is`: src/libgit2/iterator.c:247-289. The result and the new `pathlist_walk_idx`. -/
def pathlistLoop (path : Bytes) : List Bytes → Nat → Bool × Nat
  | [], walk => (false, walk)
  | p :: ps, walk =>
    let n := min (bareLen path) (bareLen p)
    let cmp := bcmp (p.take n) (path.take n)
    if cmp = 0 then
      if p.getD n 0 = 0 ∧ (path.getD n 0 = 0 ∨ path.getD n 0 = c!"/") then (true, walk)
      else if p.getD n 0 = c!"/" ∧ path.getD n 0 = c!"/" then (true, walk)
      else pathlistLoop path ps walk
    else if cmp < 0 then pathlistLoop path ps (walk + 1)
    else (false, walk)

/-- `iterator_pathlist_next_is`: src/libgit2/iterator.c:229-292 -/
def pathlistNextIs (o : Opts) (walk : Nat) (path : Bytes) : Bool × Nat :=
  if o.pathlist = [] then (true, walk) else pathlistLoop path (o.pathlist.drop walk) walk

/-- what one round of the loop of `tree_iterator_advance` does: go on, return an item, GIT_ITEROVER, or another error [src/libgit2/iterator.c:759-839] -/
inductive Step where
  | more (it : Iter)
  | item (it : Iter) (x : Item)
  | over (it : Iter)
  | fail (e : Int)
  deriving DecidableEq, Repr

/-- `tree_iterator_frame_push`: src/libgit2/iterator.c:660-686, 537-594 -/
def push (store : Store) (it : Iter) (path : Bytes) (e : Entry) : Option Iter :=
  match store e.id with
  | none => none
  | some es => some { it with frames := ⟨path, es⟩ :: it.frames }

/-- one entry: src/libgit2/iterator.c:780-838. `it` is after the entry. -/
def visit (store : Store) (o : Opts) (it : Iter) (path : Bytes) (e : Entry) : Step :=
  if (hasStarted o it.started path).1 = false then .more { it with started := (hasStarted o it.started path).2 }
  else
    let it := { it with started := (hasStarted o it.started path).2, ended := hasEnded o it.ended path }
    if it.ended then .over it
    else
      let found := pathlistNextIs o it.walk path
      let it := { it with walk := found.2 }
      if found.1 = false then .more it
      else if e.isTree && !o.includeTrees then
        if o.autoexpand then
          match push store it path e with
          | none => .fail (-3)
          | some it => .more it
        else .more it
      else
        let it := { it with last := some ⟨path, e.mode, e.id⟩ }
        if e.isTree && o.autoexpand then
          match push store it path e with
          | none => .fail (-3)
          | some it => .item it ⟨path, e.mode, e.id⟩
        else .item it ⟨path, e.mode, e.id⟩

/-- a round of the loop of `tree_iterator_advance`: src/libgit2/iterator.c:759-839 -/
def step (store : Store) (o : Opts) (it : Iter) : Step :=
  match it.frames with
  | [] => .over it
  | ⟨_, []⟩ :: fs => .more { it with frames := fs }
  | ⟨p, e :: es⟩ :: fs => visit store o { it with frames := ⟨p, es⟩ :: fs } (computePath p e) e

/-- the loop of `tree_iterator_advance`: src/libgit2/iterator.c:759-845; `none`: it is not done after `fuel` rounds. No item: GIT_ITEROVER. -/
def advanceLoop (store : Store) (o : Opts) : Nat → Iter → Option (Res (Iter × Option Item))
  | 0, _ => none
  | fuel + 1, it =>
    match step store o it with
    | .more it => advanceLoop store o fuel it
    | .item it x => some (.ok (it, some x))
    | .over it => some (.ok (it, none))
    | .fail e => some (.err e)

/-- `tree_iterator_advance`: src/libgit2/iterator.c:752-846 -/
def advance (store : Store) (o : Opts) (fuel : Nat) (it : Iter) : Option (Res (Iter × Option Item)) := advanceLoop store o fuel { it with accessed := true }

/-- `tree_iterator_current`: src/libgit2/iterator.c:719-734 -/
def current (store : Store) (o : Opts) (fuel : Nat) (it : Iter) : Option (Res (Iter × Option Item)) :=
  if it.accessed = false then advance store o fuel it
  else if it.frames = [] then some (.ok (it, none))
  else some (.ok (it, it.last))

/-! ## Pathspecs -/

/-- what one text has in common with another: src/util/str.c:1227-1232 -/
def common : Bytes → Bytes → Bytes
  | a :: as, b :: bs => if a = b then a :: common as bs else []
  | _, _ => []

/-- `git_str_common_prefix`: src/util/str.c:1210-1239 -/
def commonPrefix : List Bytes → Bytes
  | [] => []
  | s :: ss => ss.foldl common s

/-- the scan for a wildcard: src/libgit2/pathspec.c:30-35, as what is before it; `prev` is the byte before -/
def beforeWild : Option UInt8 → Bytes → Bytes
  | _, [] => []
  | prev, c :: t => if Ignore.isWildcard c = true ∧ prev ≠ some c!"\\" then [] else c :: beforeWild (some c) t

/-- `git__unescape`: src/util/util.c:655-674 -/
def unescape : Bytes → Bytes
  | [] => []
  | [c] => [c]
  | c :: d :: t => if c = c!"\\" then d :: unescape t else c :: unescape (d :: t)

/-- `git_pathspec_prefix`: src/libgit2/pathspec.c:21-46 -/
def pathspecPrefix (ps : List Bytes) : Option Bytes :=
  let p := beforeWild none (commonPrefix ps)
  if p = [] then none else some (unescape p)

/-- `git_attr_fnmatch`, as a pathspec has it [src/libgit2/attr_file.h:66-72, 17-37] -/
structure PSpec where
  pattern : Bytes
  matchAll : Bool
  negative : Bool
  wild : Bool
  deriving DecidableEq, Repr

/-- an entry of a pathspec: src/libgit2/pathspec.c:79-100, with `git_attr_fnmatch__parse` (the flags are those of ignore files) and `parse_optimized_patterns` (attr_file.c:836-850).
`none`: it is left out. -/
def parseSpec (s : Bytes) : Option PSpec :=
  match Ignore.parseOne none s with
  | .notFound _ => none
  | .rule r _ => some ⟨r.pattern, decide (s = b!"*" ∨ s = b!"."), r.negative, r.wild⟩

/-- `git_pathspec_is_empty`, `git_pathspec__vinit`: src/libgit2/pathspec.c:49-103 -/
def vinit (ps : List Bytes) : List PSpec := if ps.all (· = []) then [] else ps.filterMap parseSpec

/-- the comparisons of `pathspec_match_one`: src/libgit2/pathspec.c:143-156; whether `result` is 0 at :158-160 -/
def specMatches (disableFnmatch : Bool) (m : PSpec) (path : Bytes) : Bool :=
  if m.matchAll then true
  else if m.pattern = path then true
  else
    let r := if disableFnmatch then Wildmatch.R.noMatch else Wildmatch.wildmatch ⟨false, false⟩ m.pattern path
    if r = .ok then true
    else decide (r = .noMatch ∧ m.wild = false ∧ path.take m.pattern.length = m.pattern ∧ path.getD m.pattern.length 0 = c!"/")

/-- whether `result` is WM_NOMATCH at src/libgit2/pathspec.c:161 -/
def specNoMatch (disableFnmatch : Bool) (m : PSpec) (path : Bytes) : Bool :=
  !specMatches disableFnmatch m path && (disableFnmatch || decide (Wildmatch.wildmatch ⟨false, false⟩ m.pattern path = .noMatch))

/-- `pathspec_match_one`: src/libgit2/pathspec.c:138-171 -/
def matchOne (disableFnmatch : Bool) (m : PSpec) (path : Bytes) : Int :=
  if specNoMatch disableFnmatch m path = true ∧ m.negative = true ∧ path.head? = some c!"!" ∧ path.tail.take m.pattern.length = m.pattern ∧
      (path.getD (m.pattern.length + 1) 0 = 0 ∨ path.getD (m.pattern.length + 1) 0 = c!"/") then 1
  else if specMatches disableFnmatch m path then (if m.negative then 0 else 1)
  else -1

/-- `git_pathspec__match_at`: src/libgit2/pathspec.c:173-193; the result -/
def matchAt (disableFnmatch : Bool) (path : Bytes) : List PSpec → Int
  | [] => -3
  | m :: ms => if 0 ≤ matchOne disableFnmatch m path then matchOne disableFnmatch m path else matchAt disableFnmatch path ms

/-- `git_pathspec__match`: src/libgit2/pathspec.c:196-230 -/
def pathspecMatch (disableFnmatch : Bool) (ps : List PSpec) (path : Bytes) : Bool := ps.isEmpty || decide (0 < matchAt disableFnmatch path ps)

/-! ## The diff -/

/-- `git_delta_t`, those of two trees [include/git2/diff.h:198-210] -/
inductive Status where
  | unmodified | added | deleted | modified | typechange
  deriving DecidableEq, Repr

/-- `git_diff_file` without the path, the size and the GIT_DIFF_FLAG_VALID_* flags [include/git2/diff.h:263-270] -/
structure File where
  mode : Nat
  id : Bytes
  present : Bool
  deriving DecidableEq, Repr

/-- `git_diff_delta` [include/git2/diff.h:331-338]; both files have the same path -/
structure Delta where
  status : Status
  path : Bytes
  nfiles : Nat
  old : File
  new : File
  deriving DecidableEq, Repr

/-- `git_diff_options`: the flags, and the pathspec [include/git2/diff.h:28-190] -/
structure DOptions where
  reverse : Bool
  includeUnmodified : Bool
  includeTypechange : Bool
  includeTypechangeTrees : Bool
  ignoreSubmodules : Bool
  disablePathspecMatch : Bool
  pathspec : List Bytes
  deriving DecidableEq, Repr

/-- `git_diff_generated`: the options in effect, the pathspec [src/libgit2/diff_generate.c:29-36] -/
structure Diff where
  opts : DOptions
  pathspec : List PSpec

/-- `diff_generated_apply_options`: src/libgit2/diff_generate.c:493-513 -/
def applyOptions (o : DOptions) : Diff := ⟨{ o with includeTypechange := o.includeTypechange || o.includeTypechangeTrees }, vinit o.pathspec⟩

/-- the id of no object, for SHA-1: `git_oid_clear` [src/libgit2/oid.h] -/
def zeroId : Bytes := List.replicate 20 0

/-- `git_oid_is_zero`: src/libgit2/oid.c:292-308 -/
def isZero (id : Bytes) : Bool := id.all (· = 0)

/-- a file as `diff_delta__alloc` leaves it: src/libgit2/diff_generate.c:43, 64-65 -/
def noFile : File := ⟨0, zeroId, false⟩

/-- the status in a diff: `diff_delta__alloc`, src/libgit2/diff_generate.c:55-62 -/
def allocStatus (d : Diff) (s : Status) : Status :=
  if d.opts.reverse then
    match s with
    | .added => .deleted
    | .deleted => .added
    | s => s
  else s

/-- `diff_pathspec_match`: src/libgit2/diff_generate.c:97-121 -/
def diffPathspecMatch (d : Diff) (x : Item) : Bool :=
  if (modeType x.mode = 0o12 ∨ modeType x.mode = 0o10) ∧ d.opts.disablePathspecMatch = true then true
  else pathspecMatch d.opts.disablePathspecMatch d.pathspec x.path

/-- `diff_delta__from_one`: src/libgit2/diff_generate.c:143-219; `isOld`: the entry is `oitem` -/
def fromOne (d : Diff) (s : Status) (x : Item) (isOld : Bool) (deltas : List Delta) : List Delta :=
  if diffPathspecMatch d x = false then deltas
  else
    let f : File := ⟨x.mode, x.id, true⟩
    let hasOld := if d.opts.reverse then !isOld else isOld
    deltas ++ [⟨allocStatus d s, x.path, 1, if hasOld then f else noFile, if hasOld then noFile else f⟩]

/-- `diff_delta__from_two`: src/libgit2/diff_generate.c:221-286, for entries that are no conflicts -/
def fromTwo (d : Diff) (s : Status) (o n : Item) (deltas : List Delta) : List Delta :=
  if s = .unmodified ∧ d.opts.includeUnmodified = false then deltas
  else
    let a := if d.opts.reverse then n else o
    let b := if d.opts.reverse then o else n
    deltas ++ [⟨allocStatus d s, o.path, 2, ⟨a.mode, a.id, true⟩, ⟨b.mode, b.id, true⟩⟩]

/-- whether the last delta is the one of an item: the switch of `diff_delta__last_for_item`, src/libgit2/diff_generate.c:296-320 -/
def isForItem (dl : Delta) (x : Item) : Bool :=
  match dl.status with
  | .unmodified | .deleted => dl.old.id = x.id
  | .added => dl.new.id = x.id
  | .modified => dl.old.id = x.id || (dl.new.mode = x.mode && dl.new.id = x.id)
  | .typechange => false

/-- `diff_delta__last_for_item` and what is done to the delta: src/libgit2/diff_generate.c:288-323, 1190-1196, 1220-1225 -/
def changeLast (x : Item) (f : Delta → Delta) (deltas : List Delta) : List Delta :=
  match deltas.getLast? with
  | none => deltas
  | some dl => if isForItem dl x then deltas.dropLast ++ [f dl] else deltas

/-- `maybe_modified`, for items of trees: src/libgit2/diff_generate.c:803-949 -/
def maybeModified (d : Diff) (o n : Item) (deltas : List Delta) : List Delta :=
  if diffPathspecMatch d o = false then deltas
  else if modeType o.mode ≠ modeType n.mode then
    if d.opts.includeTypechange then fromTwo d .typechange o n deltas
    else fromOne d .added n false (fromOne d .deleted o true deltas)
  else if o.id = n.id ∧ o.mode = n.mode ∧ isZero o.id = false then fromTwo d .unmodified o n deltas
  else if modeType n.mode = 0o16 ∧ d.opts.ignoreSubmodules = true then fromTwo d .unmodified o n deltas
  else fromTwo d .modified o n deltas

/-- `entry_is_prefixed`: src/libgit2/diff_generate.c:951-966 -/
def entryIsPrefixed (item : Option Item) (pre : Item) : Bool :=
  match item with
  | none => false
  | some x =>
    if prefixcmp x.path pre.path ≠ 0 then false
    else pre.path.getLast? = some c!"/" ∨ x.path.getD pre.path.length 0 = 0 ∨ x.path.getD pre.path.length 0 = c!"/"

/-- the deltas of `handle_unmatched_new_item`, for an iterator of a tree: src/libgit2/diff_generate.c:1045-1057, 1133-1135, 1177-1197 -/
def unmatchedNew (d : Diff) (oitem : Option Item) (n : Item) (deltas : List Delta) : List Delta :=
  let deltas := fromOne d .added n false deltas
  if d.opts.includeTypechangeTrees = true ∧ entryIsPrefixed oitem n = true then
    changeLast n (fun dl => { dl with status := .typechange, old := { dl.old with mode := 0o40000 } }) deltas
  else deltas

/-- the deltas of `handle_unmatched_old_item`, for an iterator of a tree: src/libgit2/diff_generate.c:1202-1225 -/
def unmatchedOld (d : Diff) (o : Item) (nitem : Option Item) (deltas : List Delta) : List Delta :=
  let deltas := fromOne d .deleted o true deltas
  if d.opts.includeTypechangeTrees = true ∧ entryIsPrefixed nitem o = true then
    changeLast o (fun dl => { dl with status := .typechange, new := { dl.new with mode := 0o40000 } }) deltas
  else deltas

/-- `diff_in_progress` [src/libgit2/diff_generate.c:726-734] -/
structure Info where
  oitem : Option Item
  oiter : Iter
  nitem : Option Item
  niter : Iter

/-- the loop of `git_diff__from_iterators`: src/libgit2/diff_generate.c:1288-1320, with `iterator_advance` (:982-1014) and `handle_matched_item` (:1240-1252).
`none`: it is not done with this `fuel`. -/
def diffLoop (store : Store) (d : Diff) (io : Opts) : Nat → Info → List Delta → Option (Res (List Delta))
  | 0, _, _ => none
  | fuel + 1, i, deltas =>
    match i.oitem, i.nitem with
    | none, none => some (.ok deltas)
    | some o, none =>
      match advance store io fuel i.oiter with
      | none => none
      | some (.ok r) => diffLoop store d io fuel ⟨r.2, r.1, i.nitem, i.niter⟩ (unmatchedOld d o i.nitem deltas)
      | some (.err e) => some (.err e)
      | some .ub => some .ub
    | none, some n =>
      match advance store io fuel i.niter with
      | none => none
      | some (.ok r) => diffLoop store d io fuel ⟨i.oitem, i.oiter, r.2, r.1⟩ (unmatchedNew d i.oitem n deltas)
      | some (.err e) => some (.err e)
      | some .ub => some .ub
    | some o, some n =>
      if bcmp o.path n.path < 0 then
        match advance store io fuel i.oiter with
        | none => none
        | some (.ok r) => diffLoop store d io fuel ⟨r.2, r.1, i.nitem, i.niter⟩ (unmatchedOld d o i.nitem deltas)
        | some (.err e) => some (.err e)
        | some .ub => some .ub
      else if 0 < bcmp o.path n.path then
        match advance store io fuel i.niter with
        | none => none
        | some (.ok r) => diffLoop store d io fuel ⟨i.oitem, i.oiter, r.2, r.1⟩ (unmatchedNew d i.oitem n deltas)
        | some (.err e) => some (.err e)
        | some .ub => some .ub
      else
        match advance store io fuel i.oiter with
        | none => none
        | some (.err e) => some (.err e)
        | some .ub => some .ub
        | some (.ok r) =>
          match advance store io fuel i.niter with
          | none => none
          | some (.err e) => some (.err e)
          | some .ub => some .ub
          | some (.ok s) => diffLoop store d io fuel ⟨r.2, r.1, s.2, s.1⟩ (maybeModified d o n deltas)

/-- `git_diff__from_iterators`: src/libgit2/diff_generate.c:1254-1334, with `iterator_current` (:968-980) -/
def fromIterators (store : Store) (o : DOptions) (io : Opts) (fuel : Nat) (a b : Iter) : Option (Res (List Delta)) :=
  match current store io fuel a with
  | none => none
  | some (.err e) => some (.err e)
  | some .ub => some .ub
  | some (.ok r) =>
    match current store io fuel b with
    | none => none
    | some (.err e) => some (.err e)
    | some .ub => some .ub
    | some (.ok s) => diffLoop store (applyOptions o) io fuel ⟨r.2, r.1, s.2, s.1⟩ []

/-- `diff_prepare_iterator_opts`: src/libgit2/diff_generate.c:1336-1360, with the flags of :1370, 1388 -/
def iterOptions (o : DOptions) : Options :=
  if o.disablePathspecMatch then ⟨false, false, none, none, o.pathspec⟩
  else ⟨false, false, pathspecPrefix o.pathspec, pathspecPrefix o.pathspec, []⟩

/-- `git_diff_tree_to_tree`: src/libgit2/diff_generate.c:1362-1404; the trees are given by their entries -/
def treeToTree (store : Store) (o : DOptions) (fuel : Nat) (old new : Option (List Entry)) : Option (Res (List Delta)) :=
  let io := initCommon (iterOptions o)
  fromIterators store o io fuel (newIter io old) (newIter io new)

end Verif.TreeDiff
