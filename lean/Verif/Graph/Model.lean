import Verif.Base
import Verif.PQueue.Model
/-! # Ancestry: src/libgit2/merge.c:72-600, graph.c, commit_list.c

The commits are numbers below `n` (their ids; the map from ids to nodes, `git_revwalk__commit_lookup`, is C25).  `parents c` is what
`git_commit_list_parse` finds, and none if the commit cannot be read; a node is parsed once and the store does not change, so whether it was
parsed before makes no difference. `time` and `gen` are what it finds for the committer time and the generation (0 if there is no commit
graph).  The flags of the nodes are a function from commits to `Flags`.  Memory allocation succeeds.

`minimum_generation` is not modelled: `git_merge_bases` and the like pass 0, and `git_graph_reachable_from_any` takes the minimum of the
generations of nodes that were just allocated, which is 0 as they are not parsed yet (graph.c:209-229), so `p->generation <
minimum_generation` never holds. -/
namespace Verif.Graph

/-- the commits of a repository [what src/libgit2/commit_list.c:170-218 reads] -/
structure Repo where
  n : Nat
  parents : Nat → Option (List Nat)
  time : Nat → Int
  gen : Nat → Nat

/-- PARENT1, PARENT2, RESULT and STALE: src/libgit2/commit_list.h:14-18 -/
structure Flags where
  p1 : Bool
  p2 : Bool
  result : Bool
  stale : Bool
deriving DecidableEq, Repr

/-- [`flags` of every node: src/libgit2/commit_list.h:35] -/
abbrev Marks := Nat → Flags

/-- `flags = 0` [src/libgit2/commit_list.h:14-18] -/
def noFlags : Flags := ⟨false, false, false, false⟩
/-- [src/libgit2/commit_list.h:35, all zero] -/
def clean : Marks := fun _ => noFlags

/-- `flags |= more` (RESULT is never among `more`) [src/libgit2/merge.c:422-438] -/
def Flags.or (a b : Flags) : Flags := ⟨a.p1 || b.p1, a.p2 || b.p2, a.result || b.result, a.stale || b.stale⟩
/-- `(flags & sub) == sub` [src/libgit2/merge.c:430] -/
def Flags.has (a sub : Flags) : Bool := (!sub.p1 || a.p1) && (!sub.p2 || a.p2) && (!sub.result || a.result) && (!sub.stale || a.stale)
/-- `mark & flags` with ALL_FLAGS [src/libgit2/merge.c:337] -/
def Flags.any (a : Flags) : Bool := a.p1 || a.p2 || a.result || a.stale

/-- the marks with those of one commit replaced [no code: one value replaced] -/
def upd (fl : Marks) (c : Nat) (f : Flags) : Marks := fun x => if x = c then f else fl x

/-- `git_commit_list_time_cmp`: src/libgit2/commit_list.c:33-44 -/
def timeCmp (g : Repo) (a b : Nat) : Int := if g.time a < g.time b then 1 else if g.time a > g.time b then -1 else 0

/-- `git_commit_list_generation_cmp`: src/libgit2/commit_list.c:15-31 -/
def generationCmp (g : Repo) (a b : Nat) : Int :=
  if g.gen a = 0 ∨ g.gen b = 0 then timeCmp g a b
  else if g.gen a < g.gen b then 1 else if g.gen a > g.gen b then -1 else 0

/-- What the painting loops work on: the queue, the marks, the commits that became results (`*out`, latest first; mark_parents has no such list, but marks
the same commits), and the roots seen (only in mark_parents). [src/libgit2/merge.c:379-447, src/libgit2/graph.c:33-105] -/
structure State where
  q : PQueue.PQ Nat
  fl : Marks
  res : List Nat
  roots : List Nat

/-- what `flags` is after src/libgit2/merge.c:418-427 = src/libgit2/graph.c:66-72 -/
def passed (f : Flags) : Flags := ⟨f.p1, f.p2, false, f.stale || (f.p1 && f.p2)⟩

/-- the loop over the parents: src/libgit2/merge.c:427-442 = src/libgit2/graph.c:74-85 -/
def paintParents (g : Repo) (flags : Flags) : List Nat → PQueue.PQ Nat → Marks → Res (PQueue.PQ Nat × Marks)
  | [], q, fl => .ok (q, fl)
  | p :: ps, q, fl =>
    if (fl p).has flags then paintParents g flags ps q fl
    else
      match g.parents p with
      | none => .err (-1)
      | some _ =>
        match PQueue.insert q p with
        | none => .ub
        | some q => paintParents g flags ps q (upd fl p ((fl p).or flags))

/-- whether the commit that was popped becomes a result: src/libgit2/merge.c:419-425 -/
def isResult (f : Flags) : Bool := f.p1 && f.p2 && !f.stale && !f.result

/-- one turn of the loop for a commit that was popped; a commit that was not parsed has no parents [src/libgit2/merge.c:410-441] -/
def visit (g : Repo) (s : State) (c : Nat) (q : PQueue.PQ Nat) : Res State :=
  let fl := if isResult (s.fl c) then upd s.fl c { (s.fl c) with result := true } else s.fl
  let ps := (g.parents c).getD []
  paintParents g (passed (s.fl c)) ps q fl >>= fun r =>
  .ok ⟨r.1, r.2, if isResult (s.fl c) then c :: s.res else s.res, if ps = [] then c :: s.roots else s.roots⟩

/-- `interesting`: src/libgit2/merge.c:315-326 -/
def interesting (s : State) : Bool := s.q.contents.any fun c => !(s.fl c).stale

/-- the `while` loops of `paint_down_to_common`, src/libgit2/merge.c:411-443, and of `mark_parents`, src/libgit2/graph.c:60-92, which differ in
`interesting`; `.ub` is the loop going on for ever (never, see `C28_total`) -/
def paintLoop (interesting : State → Bool) (g : Repo) : Nat → State → Res State
  | 0, _ => .ub
  | fuel + 1, s =>
    if interesting s then
      match (PQueue.pop s.q).1 with
      | none => .ok s
      | some c => visit g s c (PQueue.pop s.q).2 >>= paintLoop interesting g fuel
    else .ok s

/-- the loop `git_vector_foreach(twos, i, two)`: src/libgit2/merge.c:402-408 -/
def paintTwos (g : Repo) : List Nat → PQueue.PQ Nat → Marks → Res (PQueue.PQ Nat × Marks)
  | [], q, fl => .ok (q, fl)
  | t :: ts, q, fl =>
    match g.parents t with
    | none => .err (-1)
    | some _ =>
      match PQueue.insert q t with
      | none => .ub
      | some q => paintTwos g ts q (upd fl t { (fl t) with p2 := true })

/-- enough turns for any repository: each turn takes a commit off the queue, and a commit gets there only with a flag it did not have [no code: a bound] -/
def paintFuel (g : Repo) (k : Nat) : Nat := 3 * g.n + k + 2

/-- `paint_down_to_common`: src/libgit2/merge.c:379-447 -/
def paintDown (g : Repo) (fl : Marks) (one : Nat) (twos : List Nat) : Res State :=
  match PQueue.insert (PQueue.init false (twos.length * 2) (some (generationCmp g))) one with
  | none => .ub
  | some q =>
    paintTwos g twos q (upd fl one { (fl one) with p1 := true }) >>= fun r =>
    paintLoop interesting g (paintFuel g twos.length) ⟨r.1, r.2, [], []⟩

/-- `clear_commit_marks_1` called while there are commits on the list: src/libgit2/merge.c:328-349, 351-377.  The first parent, with which the inner loop goes on,
is on top of the list here. -/
def clearLoop (g : Repo) : Nat → List Nat → Marks → Res Marks
  | _, [], fl => .ok fl
  | 0, _ :: _, _ => .ub
  | fuel + 1, c :: rest, fl =>
    if (fl c).any then
      let ps := (g.parents c).getD []
      clearLoop g fuel (ps.take 1 ++ (ps.drop 1).reverse ++ rest) (upd fl c noFlags)
    else clearLoop g fuel rest fl

/-- the number of edges [no code: a bound] -/
def edges (g : Repo) : Nat := ((List.range g.n).map fun c => ((g.parents c).getD []).length).sum

/-- `clear_commit_marks` and `clear_commit_marks_many`: src/libgit2/merge.c:349-377 -/
def clearMarks (g : Repo) (l : List Nat) (fl : Marks) : Res Marks := clearLoop g (l.length + edges g) l.reverse fl

/-- `git_commit_list_insert_by_date`: src/libgit2/commit_list.c:62-75 -/
def insertByDate (g : Repo) (c : Nat) : List Nat → List Nat
  | [] => [c]
  | p :: l => if timeCmp g p c > 0 then c :: p :: l else p :: insertByDate g c l

/-- `work`, the commits that are not redundant, without the `i`th: src/libgit2/merge.c:477-485 -/
def workOf (commits : List Nat) (redundant : List Bool) (i : Nat) : List (Nat × Nat) :=
  ((List.range commits.length).filter fun j => j ≠ i && !(redundant.getD j false)).map fun j => (j, commits.getD j 0)

/-- one turn of the loop of `remove_redundant`: src/libgit2/merge.c:468-505 -/
def redundantStep (g : Repo) (commits : List Nat) (i : Nat) (redundant : List Bool) (fl : Marks) : Res (List Bool × Marks) :=
  if redundant.getD i false then .ok (redundant, fl)
  else
    let commit := commits.getD i 0
    let work := workOf commits redundant i
    paintDown g fl commit (work.map (·.2)) >>= fun s =>
    let r1 := if (s.fl commit).p2 then redundant.set i true else redundant
    let r2 := work.foldl (fun r w => if (s.fl w.2).p1 then r.set w.1 true else r) r1
    clearMarks g [commit] s.fl >>= fun fl => clearMarks g (work.map (·.2)) fl >>= fun fl => .ok (r2, fl)

/-- the loop of `remove_redundant` [src/libgit2/merge.c:462-505] -/
def redundantLoop (g : Repo) (commits : List Nat) : List Nat → List Bool → Marks → Res (List Bool)
  | [], r, _ => .ok r
  | i :: is, r, fl => redundantStep g commits i r fl >>= fun x => redundantLoop g commits is x.1 x.2

/-- `remove_redundant`: src/libgit2/merge.c:449-515; the commits that are left. All of them can be read. -/
def removeRedundant (g : Repo) (fl : Marks) (commits : List Nat) : Res (List Nat) :=
  if commits.all (fun c => (g.parents c).isSome) then
    redundantLoop g commits (List.range commits.length) (List.replicate commits.length false) fl >>= fun r =>
    .ok (((List.range commits.length).filter fun j => !(r.getD j false)).map fun j => commits.getD j 0)
  else .err (-1)

/-- `git_merge__bases_many`: src/libgit2/merge.c:517-586 -/
def basesMany (g : Repo) (one : Nat) (twos : List Nat) : Res (List Nat) :=
  if twos = [] then .ok []
  else if one ∈ twos then .ok [one]
  else
    match g.parents one with
    | none => .err (-1)
    | some _ =>
      paintDown g clean one twos >>= fun s =>
      let result := (s.res.filter fun c => !(s.fl c).stale).foldl (fun l c => insertByDate g c l) []
      if result.length > 1 then
        clearMarks g [one] s.fl >>= fun fl => clearMarks g twos fl >>= fun fl =>
        removeRedundant g fl result >>= fun l => .ok (l.foldl (fun l c => insertByDate g c l) [])
      else .ok result

/-- GIT_ENOTFOUND [include/git2/errors.h:32] -/
def ENOTFOUND : Int := -3

/-- `git_merge_bases` with `merge_bases`: src/libgit2/merge.c:220-313 -/
def mergeBases (g : Repo) (one two : Nat) : Res (List Nat) :=
  match basesMany g one [two] with
  | .ok [] => .err ENOTFOUND
  | .ok l => .ok l
  | .err _ => .err (-1)
  | .ub => .ub

/-- `git_merge_base`: src/libgit2/merge.c:265-279 -/
def mergeBase (g : Repo) (one two : Nat) : Res Nat :=
  match mergeBases g one two with
  | .ok (b :: _) => .ok b
  | .ok [] => .ub
  | .err e => .err e
  | .ub => .ub

/-- `git_merge_bases_many` with `merge_bases_many`: src/libgit2/merge.c:82-191 -/
def mergeBasesMany (g : Repo) (input : List Nat) : Res (List Nat) :=
  match input with
  | one :: two :: rest =>
    match basesMany g one (two :: rest) with
    | .ok [] => .err ENOTFOUND
    | .ok l => .ok l
    | .err _ => .err (-1)
    | .ub => .ub
  | _ => .err (-1)

/-- the loop of `git_merge_base_octopus` [src/libgit2/merge.c:205-213] -/
def octopusLoop (g : Repo) : Nat → List Nat → Res Nat
  | r, [] => .ok r
  | r, c :: cs => mergeBase g r c >>= fun r => octopusLoop g r cs

/-- `git_merge_base_octopus`: src/libgit2/merge.c:193-218 -/
def octopus (g : Repo) (input : List Nat) : Res Nat :=
  match input with
  | one :: two :: rest => octopusLoop g one (two :: rest)
  | _ => .err (-1)

/-- `git_graph_reachable_from_any`: src/libgit2/graph.c:185-249 -/
def reachableFromAny (g : Repo) (commit : Nat) (descendants : List Nat) : Res Bool :=
  if descendants = [] then .ok false
  else if commit ∈ descendants then .ok true
  else
    match basesMany g commit descendants with
    | .ok [] => .ok false
    | .ok (b :: _) => .ok (b = commit)
    | .err e => .err e
    | .ub => .ub

/-- `git_graph_descendant_of`: src/libgit2/graph.c:177-183 -/
def descendantOf (g : Repo) (commit ancestor : Nat) : Res Bool :=
  if commit = ancestor then .ok false else reachableFromAny g ancestor [commit]

/-! ### ahead and behind -/

/-- `interesting` of src/libgit2/graph.c:14-32 -/
def interestingRoots (s : State) : Bool := (s.q.contents.any fun c => !(s.fl c).stale) || s.roots.any fun c => !(s.fl c).stale

/-- `mark_parents`: src/libgit2/graph.c:33-105; the marks -/
def markParents (g : Repo) (one two : Nat) : Res Marks :=
  if one = two then .ok (upd clean one ⟨true, true, true, false⟩)
  else
    match g.parents one with
    | none => .err (-1)
    | some _ =>
      match PQueue.insert (PQueue.init false 2 (some (generationCmp g))) one with
      | none => .ub
      | some q =>
        paintTwos g [two] q (upd clean one { noFlags with p1 := true }) >>= fun r =>
        paintLoop interestingRoots g (paintFuel g 1) ⟨r.1, r.2, [], []⟩ >>= fun s => .ok s.fl

/-- inserting the parents: src/libgit2/graph.c:133-137 -/
def pushAll (q : PQueue.PQ Nat) : List Nat → Option (PQueue.PQ Nat)
  | [] => some q
  | p :: ps => match PQueue.insert q p with | none => none | some q => pushAll q ps

/-- the loop of `ahead_behind`: src/libgit2/graph.c:123-139 -/
def countLoop (g : Repo) : Nat → PQueue.PQ Nat → Marks → Nat × Nat → Res (Nat × Nat)
  | 0, _, _, _ => .ub
  | fuel + 1, q, fl, n =>
    match (PQueue.pop q).1 with
    | none => .ok n
    | some c =>
      if (fl c).result || ((fl c).p1 && (fl c).p2) then countLoop g fuel (PQueue.pop q).2 fl n
      else
        match pushAll (PQueue.pop q).2 ((g.parents c).getD []) with
        | none => .ub
        | some q => countLoop g fuel q (upd fl c { (fl c) with result := true })
            (if (fl c).p1 then (n.1 + 1, n.2) else if (fl c).p2 then (n.1, n.2 + 1) else n)

/-- `ahead_behind`: src/libgit2/graph.c:108-144; the inner counter is an `int`, which is enough for the at most 65535 parents -/
def countAB (g : Repo) (fl : Marks) (one two : Nat) : Res (Nat × Nat) :=
  match pushAll (PQueue.init false 2 (some (timeCmp g))) [one, two] with
  | none => .ub
  | some q => countLoop g (edges g + 3) q fl (0, 0)

/-- `git_graph_ahead_behind`: src/libgit2/graph.c:146-175 -/
def aheadBehind (g : Repo) (local_ upstream : Nat) : Res (Nat × Nat) :=
  markParents g local_ upstream >>= fun fl => countAB g fl local_ upstream

end Verif.Graph
