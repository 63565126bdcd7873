import Verif.Index.Model
/-! # Model of the three-way merge of trees: `src/libgit2/merge.c`

The merge without rename detection (`GIT_MERGE_FIND_RENAMES` not given: `git_merge_diff_list__find_renames` returns at once,
merge.c:1559-1561). The three trees are given as what their iterators list: entries of stage 0. The merge driver (attribute lookup,
`apply`, writing the blob) is a parameter. Not modelled: allocation failures, the options' normalization, the rename and
resolve-undo extensions of the resulting index. -/
namespace Verif.Merge
open Verif.Index

/-- [include/git2/errors.h:60] -/
def EMERGECONFLICT : Int := -24

/-! ## Walking the iterators together: src/libgit2/iterator.c -/

/-- one round of the loop over the iterators: src/libgit2/iterator.c:2408-2434. `acc` is `first_match` and `cur_items`. -/
def pickStep (acc : Option Entry × List (Option Entry)) (item : Option Entry) : Option Entry × List (Option Entry) :=
  match item with
  | none => (acc.1, acc.2 ++ [none])
  | some e => match acc.1 with
    | none => (some e, acc.2 ++ [some e])
    | some first =>
      if entryCmp e first < 0 then (some e, acc.2.map (fun _ => none) ++ [some e])
      else if entryCmp e first = 0 then (some first, acc.2 ++ [some e])
      else (some first, acc.2 ++ [none])

/-- the next items to hand to the callback: src/libgit2/iterator.c:2402-2434 -/
def pick (iters : List (List Entry)) : Option Entry × List (Option Entry) := (iters.map List.head?).foldl pickStep (none, [])

/-- advancing the iterators that took part: src/libgit2/iterator.c:2442-2452 -/
def advance (iters : List (List Entry)) (cur : List (Option Entry)) : List (List Entry) :=
  List.zipWith (fun l c => if c.isSome then l.tail else l) iters cur

/-- `git_iterator_walk`: src/libgit2/iterator.c:2377-2462. The list of the callback's arguments; `fuel` bounds the rounds. -/
def walkLoop : Nat → List (List Entry) → List (List (Option Entry))
  | 0, _ => []
  | fuel + 1, iters =>
    let p := pick iters
    match p.1 with
    | none => []
    | some _ => p.2 :: walkLoop fuel (advance iters p.2)

/-- `git_iterator_walk`: every round takes at least one item, so this many rounds are enough [src/libgit2/iterator.c:2377-2462] -/
def walk (iters : List (List Entry)) : List (List (Option Entry)) := walkLoop ((iters.map List.length).sum + 1) iters

/-! ## Differences -/

/-- `git_delta_t`, the values used here: include/git2/diff.h -/
inductive Status where
  | unmodified | added | deleted | modified | typechange
  deriving DecidableEq, Repr

/-- `git_merge_diff_t`, the values used here: src/libgit2/merge.h:32-68 -/
inductive Kind where
  | none | bothAdded | bothModified | bothDeleted | modifiedDeleted | directoryFile | dfChild
  deriving DecidableEq, Repr

/-- `git_merge_diff`: src/libgit2/merge.h:85-98 -/
structure Diff where
  kind : Kind
  ancestor : Entry
  ours : Entry
  theirs : Entry
  ourStatus : Status
  theirStatus : Status
  deriving DecidableEq, Repr

/-- the zeroed entry of an absent side (`git_pool_mallocz`: src/libgit2/merge.c:1752); an empty path stands for its NULL pointer -/
def zeroEntry : Entry := ⟨[], 0, 0, [], []⟩

/-- `GIT_MERGE_INDEX_ENTRY_EXISTS`: src/libgit2/merge.c:53 -/
def existing (e : Entry) : Bool := e.mode ≠ 0

/-- `index_entry_cmp(a, b) != 0`: src/libgit2/merge.c:643-655 -/
def entryDiffers (a b : Entry) : Bool :=
  if a.path = [] then b.path ≠ []
  else a.mode ≠ b.mode ∨ a.id ≠ b.id ∨ bcmp a.path b.path ≠ 0

/-- `S_ISDIR`, `S_ISLNK`, `S_ISGITLINK`: src/util/posix.h:15-40 -/
def isDir (m : Nat) : Bool := m &&& 0o170000 = 0o040000
/-- [src/util/posix.h:37] -/
def isLnk (m : Nat) : Bool := m &&& 0o170000 = 0o120000
/-- [src/util/posix.h:19] -/
def isGitlink (m : Nat) : Bool := m &&& 0o170000 = 0o160000

/-- `merge_delta_type_from_index_entries`: src/libgit2/merge.c:1724-1743 -/
def deltaType : Option Entry → Option Entry → Status
  | none, none => .unmodified
  | none, some _ => .added
  | some _, none => .deleted
  | some a, some o =>
    if isDir a.mode != isDir o.mode then .typechange
    else if isLnk a.mode != isLnk o.mode then .typechange
    else if a.id ≠ o.id ∨ a.mode ≠ o.mode then .modified
    else .unmodified

/-- `merge_diff_detect_type`: src/libgit2/merge.c:1686-1708 -/
def detectType (ours theirs : Status) : Kind :=
  if ours = .added ∧ theirs = .added then .bothAdded
  else if ours = .modified ∧ theirs = .modified then .bothModified
  else if ours = .deleted ∧ theirs = .deleted then .bothDeleted
  else if ours = .modified ∧ theirs = .deleted then .modifiedDeleted
  else if ours = .deleted ∧ theirs = .modified then .modifiedDeleted
  else .none

/-- `merge_diff_from_index_entries` and `merge_diff_detect_type`: src/libgit2/merge.c:1745-1766, 1777-1778 -/
def fromEntries (a o t : Option Entry) : Diff :=
  ⟨detectType (deltaType a o) (deltaType a t), a.getD zeroEntry, o.getD zeroEntry, t.getD zeroEntry, deltaType a o, deltaType a t⟩

/-- `merge_diff_path`: src/libgit2/merge.c:1619-1630 -/
def diffPath (c : Diff) : Bytes :=
  if existing c.ancestor then c.ancestor.path else if existing c.ours then c.ours.path else c.theirs.path

/-- `merge_diff_any_side_added_or_modified`: src/libgit2/merge.c:1632-1642 -/
def anyAddedOrModified (c : Diff) : Bool :=
  c.ourStatus = .added ∨ c.ourStatus = .modified ∨ c.theirStatus = .added ∨ c.theirStatus = .modified

/-- `path_is_prefixed`: src/libgit2/merge.c:1644-1654 -/
def pathIsPrefixed (parent child : Bytes) : Bool :=
  if child.length < parent.length ∨ bcmp parent (child.take parent.length) ≠ 0 then false
  else charAt child parent.length = c!"/"

/-- `git_merge_diff_list` and `merge_diff_df_data`: src/libgit2/merge.h:73-83, merge.c:64-68. `conflicts` is kept in reverse; its head
is `prev_conflict`, whose path is `prev_path`. -/
structure DiffList where
  staged : List Entry
  conflicts : List Diff
  dfPath : Option Bytes
  deriving DecidableEq, Repr

/-- `merge_diff_detect_df_conflict` followed by the insertion: src/libgit2/merge.c:1656-1682, 1779-1780 -/
def detectDf (l : DiffList) (c : Diff) : DiffList :=
  match l.dfPath with
  | some df =>
    if pathIsPrefixed df (diffPath c) then { l with conflicts := { c with kind := .dfChild } :: l.conflicts }
    else { l with conflicts := c :: l.conflicts, dfPath := none }
  | none => match l.conflicts with
    | [] => { l with conflicts := [c] }
    | prev :: rest =>
      if anyAddedOrModified prev ∧ anyAddedOrModified c ∧ pathIsPrefixed (diffPath prev) (diffPath c) then
        { l with conflicts := { c with kind := .dfChild } :: { prev with kind := .directoryFile } :: rest, dfPath := some (diffPath prev) }
      else { l with conflicts := c :: prev :: rest }

/-- `queue_difference`, its test: src/libgit2/merge.c:1813-1822 -/
def isModified (a o t : Option Entry) : Bool :=
  match a, o, t with
  | some a, some o, some t => entryDiffers a o || entryDiffers a t
  | _, _, _ => true

/-- `queue_difference`: src/libgit2/merge.c:1807-1828 with `merge_diff_list_insert_conflict` (:1770-1784) and
`merge_diff_list_insert_unmodified` (:1786-1800). `items` are the three items of the walk. -/
def queueDifference (l : DiffList) (items : List (Option Entry)) : DiffList :=
  let a := (items[0]?).join
  let o := (items[1]?).join
  let t := (items[2]?).join
  if isModified a o t then detectDf l (fromEntries a o t)
  else { l with staged := l.staged ++ [a.getD zeroEntry] }

/-- `git_merge_diff_list__find_differences`: src/libgit2/merge.c:1830-1840 -/
def findDifferences (a o t : List Entry) : DiffList := (walk [a, o, t]).foldl queueDifference ⟨[], [], none⟩

/-! ## Resolution -/

/-- the merge driver for the ancestor (if any), ours and theirs: the resulting entry, or an error (`GIT_EMERGECONFLICT` when it cannot
merge): `git_merge_driver_for_source` and `merge_conflict_invoke_driver`, src/libgit2/merge.c:887-926, 966-996 -/
abbrev Driver := Option Entry → Entry → Entry → Res Entry

/-- the entry chosen by `merge_conflict_resolve_trivial`: src/libgit2/merge.c:659-733 (without the rename tests, :678-680) -/
def trivialResult (c : Diff) : Option Entry :=
  let oursEmpty := ! existing c.ours
  let theirsEmpty := ! existing c.theirs
  let oursChanged := decide (c.ourStatus ≠ .unmodified)
  let theirsChanged := decide (c.theirStatus ≠ .unmodified)
  let differ := oursChanged && theirsChanged && entryDiffers c.ours c.theirs
  if c.kind = .directoryFile then none
  else if oursChanged && !oursEmpty && !differ then some c.ours
  else if oursChanged && oursEmpty && theirsEmpty then none
  else if oursEmpty && !theirsChanged then none
  else if !oursChanged && theirsEmpty then none
  else if oursChanged && !theirsChanged then some c.ours
  else if !oursChanged && theirsChanged then some c.theirs
  else none

/-- `merge_conflict_resolve_trivial`: src/libgit2/merge.c:659-743; the entry to stage, if it was resolved -/
def resolveTrivial (c : Diff) : Option Entry := (trivialResult c).filter existing

/-- `merge_conflict_resolve_one_removed`: src/libgit2/merge.c:745-784 -/
def resolveOneRemoved (c : Diff) : Bool :=
  let oursEmpty := ! existing c.ours
  let theirsEmpty := ! existing c.theirs
  let oursChanged := decide (c.ourStatus ≠ .unmodified)
  let theirsChanged := decide (c.theirStatus ≠ .unmodified)
  if c.kind = .directoryFile then false
  else (oursChanged && oursEmpty && theirsEmpty) || (oursEmpty && !theirsChanged) || (!oursChanged && theirsEmpty)

/-- `merge_conflict_can_resolve_contents`: src/libgit2/merge.c:850-885 (without the rename tests, :874-882) -/
def canResolveContents (c : Diff) : Bool :=
  if ! existing c.ours || ! existing c.theirs then false
  else if c.kind = .directoryFile then false
  else if isGitlink c.ancestor.mode || isGitlink c.ours.mode || isGitlink c.theirs.mode then false
  else if (isLnk c.ancestor.mode != isLnk c.ours.mode) || (isLnk c.ancestor.mode != isLnk c.theirs.mode) then false
  else true

/-- a side given to the driver, to the index: src/libgit2/merge.c:958-963, 2028-2038 -/
def side (e : Entry) : Option Entry := if existing e then some e else none

/-- what became of a difference [src/libgit2/merge.c:2099-2189] -/
inductive Out where
  | unresolved
  | resolved (staged : Option Entry)
  deriving DecidableEq, Repr

/-- `merge_conflict_resolve_contents`: src/libgit2/merge.c:928-1013 -/
def resolveContents (drv : Driver) (c : Diff) : Res Out :=
  if ¬ canResolveContents c then .ok .unresolved
  else match drv (side c.ancestor) c.ours c.theirs with
    | .ok e => .ok (.resolved (some e))
    | .err x => if x = EMERGECONFLICT then .ok .unresolved else .err x
    | .ub => .ub

/-- `merge_conflict_resolve`: src/libgit2/merge.c:1015-1047. `merge_conflict_resolve_one_renamed` (:786-848) does nothing without
renames. -/
def resolve (drv : Driver) (c : Diff) : Res Out :=
  match resolveTrivial c with
  | some e => .ok (.resolved (some e))
  | none => if resolveOneRemoved c then .ok (.resolved none) else resolveContents drv c

/-- the loop over the changes: src/libgit2/merge.c:2159-2177. Returns the staged entries and the conflicts. -/
def resolveAll (drv : Driver) (failOnConflict : Bool) : List Diff → List Entry → List Diff → Res (List Entry × List Diff)
  | [], staged, conflicts => .ok (staged, conflicts)
  | c :: cs, staged, conflicts => match resolve drv c with
    | .err x => .err x
    | .ub => .ub
    | .ok (.resolved e) => resolveAll drv failOnConflict cs (staged ++ e.toList) conflicts
    | .ok .unresolved =>
      if failOnConflict then .err EMERGECONFLICT
      else resolveAll drv failOnConflict cs staged (conflicts ++ [c])

/-! ## The resulting index -/

/-- inserting into a sorted list, after what compares equal [src/util/vector.c:150-183] -/
def ordInsert (e : Entry) : List Entry → List Entry
  | [] => [e]
  | x :: xs => if entryCmp e x < 0 then e :: x :: xs else x :: ordInsert e xs

/-- `git_index__fill`: src/libgit2/index.c:1638-1674. `git_vector_sort` is a sort by `git_index_entry_cmp` (C26); here it is by
insertion. -/
def fill (staged : List Entry) : St :=
  let es := staged.map (fun e => { e with mode := createMode e.mode })
  ⟨es.foldl (fun l e => ordInsert e l) [], es.foldl putmap (fun _ _ => none)⟩

/-- the loop adding the conflicts: src/libgit2/merge.c:2027-2043 -/
def addConflicts (env : Env) : List Diff → St → Res St
  | [], st => .ok st
  | c :: cs, st => match conflictAdd env st (side c.ancestor) (side c.ours) (side c.theirs) with
    | .ok r => if r.2 < 0 then .err r.2 else addConflicts env cs r.1
    | .err x => .err x
    | .ub => .ub

/-- `index_from_diff_list`: src/libgit2/merge.c:2008-2082. The index has no repository, so ids are not looked up (index.c:1387). -/
def indexFromDiffList (pathValid : Bytes → Bool) (staged : List Entry) (conflicts : List Diff) : Res St :=
  addConflicts ⟨pathValid, fun _ _ => true⟩ conflicts (fill staged)

/-- `git_merge__iterators`: src/libgit2/merge.c:2099-2189, as called by `git_merge_trees` -/
def mergeTrees (drv : Driver) (pathValid : Bytes → Bool) (failOnConflict : Bool) (a o t : List Entry) : Res St :=
  let l := findDifferences a o t
  match resolveAll drv failOnConflict l.conflicts.reverse l.staged [] with
  | .err x => .err x
  | .ub => .ub
  | .ok r => indexFromDiffList pathValid r.1 r.2

end Verif.Merge
