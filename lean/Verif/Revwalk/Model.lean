import Verif.Graph.Model
/-! # Walking the history: src/libgit2/revwalk.c

Commits, their parents, dates and the list ordered by date are those of `Verif.Graph`. Pushing and hiding are modelled for the ids of commits (an id is
looked up and peeled first, `git_revwalk__push_commit`, src/libgit2/revwalk.c:44-68; references, globs and ranges end in the same function). `insert_by_date`, an
internal option for fetching, is not modelled. A walk is modelled up to its end: `walk` gives all that `git_revwalk_next` gives before GIT_ITEROVER.
Memory allocation succeeds. -/
namespace Verif.Revwalk
open Graph (Repo timeCmp insertByDate edges)

/-- the bits of all nodes: src/libgit2/commit_list.h:27-42; the nodes keep `parsed` when a walk is reset -/
structure WS where
  parsed : Nat → Bool
  seen : Nat → Bool
  unint : Nat → Bool
  added : Nat → Bool

/-- setting a bit of one node [src/libgit2/commit_list.h:30-35] -/
def mark (f : Nat → Bool) (c : Nat) : Nat → Bool := fun x => if x = c then true else f x

/-- `git_revwalk_sorting`, `git_revwalk_simplify_first_parent`, `git_revwalk_add_hide_cb` [src/libgit2/revwalk.c:745-772, 831-848] -/
structure Opts where
  topo : Bool
  time : Bool
  reverse : Bool
  firstParent : Bool
  hideCb : Option (Nat → Bool)

/-- `walk->hide_cb && walk->hide_cb(…)` [src/libgit2/revwalk.c:428, 495] -/
def Opts.hides (o : Opts) (c : Nat) : Bool := match o.hideCb with | none => false | some f => f c

/-- `git_commit_list_parse`: src/libgit2/commit_list.c:170-218 -/
def parse (g : Repo) (s : WS) (c : Nat) : Res WS :=
  if s.parsed c then .ok s
  else match g.parents c with
    | none => .err (-1)
    | some _ => .ok { s with parsed := mark s.parsed c }

/-- the `out_degree` parents of a node, which has none before it is parsed [src/libgit2/commit_list.h:38-41] -/
def kids (g : Repo) (s : WS) (c : Nat) : List Nat := if s.parsed c then (g.parents c).getD [] else []

/-- the loops of `mark_parents_uninteresting`, src/libgit2/revwalk.c:357-377. The list `parents` with the node the inner loop goes on with, if any, on
top of it. -/
def markLoop (g : Repo) : Nat → List Nat → WS → Res WS
  | _, [], s => .ok s
  | 0, _ :: _, _ => .ub
  | fuel + 1, c :: rest, s =>
    if s.unint c then markLoop g fuel rest s
    else markLoop g fuel ((kids g s c).take 1 ++ (kids g s c).reverse ++ rest) { s with unint := mark s.unint c }

/-- `mark_parents_uninteresting`: src/libgit2/revwalk.c:348-378; the first argument of the loop is enough turns for any repository -/
def markParents (g : Repo) (c : Nat) (s : WS) : Res WS := markLoop g (2 * edges g + g.n) (kids g s c).reverse s

/-- the parents of an uninteresting commit: src/libgit2/revwalk.c:398-414; a node that was parsed has `parents` (maybe none of them) -/
def addHidden (g : Repo) : List Nat → WS → List Nat → Res (WS × List Nat)
  | [], s, l => .ok (s, l)
  | p :: ps, s, l =>
    parse g { s with unint := mark s.unint p } p >>= fun s =>
    markParents g p s >>= fun s =>
    addHidden g ps { s with seen := mark s.seen p } (insertByDate g p l)

/-- the parents of an interesting commit: src/libgit2/revwalk.c:421-438 -/
def addShown (g : Repo) (o : Opts) : List Nat → WS → List Nat → Res (WS × List Nat)
  | [], s, l => .ok (s, l)
  | p :: ps, s, l =>
    parse g s p >>= fun s =>
    if o.hides p then addShown g o ps s l
    else
      let s' := if s.seen p then s else { s with seen := mark s.seen p }
      let l' := if s.seen p then l else insertByDate g p l
      if o.firstParent then .ok (s', l') else addShown g o ps s' l'

/-- `add_parents_to_list`: src/libgit2/revwalk.c:380-440 -/
def addParents (g : Repo) (o : Opts) (c : Nat) (s : WS) (l : List Nat) : Res (WS × List Nat) :=
  if s.added c then .ok (s, l)
  else if s.unint c then addHidden g (kids g s c) { s with added := mark s.added c } l
  else addShown g o (kids g s c) { s with added := mark s.added c } l

/-- src/libgit2/revwalk.c:443 -/
def SLOP : Nat := 5

/-- INT64_MAX [src/libgit2/revwalk.c:474] -/
def maxTime : Int := 2 ^ 63 - 1

/-- `still_interesting`: src/libgit2/revwalk.c:445-469 -/
def stillInteresting (g : Repo) (s : WS) (l : List Nat) (time : Int) (slop : Nat) : Nat :=
  match l with
  | [] => 0
  | h :: _ =>
    if time ≤ g.time h then SLOP
    else if l.any (fun c => !s.unint c || decide (g.time c > time)) then SLOP
    else slop - 1

/-- `limit_list`: src/libgit2/revwalk.c:471-505; `out` is the new list, latest first -/
def limitLoop (g : Repo) (o : Opts) : Nat → List Nat → WS → Nat → Int → List Nat → Res (WS × List Nat)
  | _, [], s, _, _, out => .ok (s, out.reverse)
  | 0, _ :: _, _, _, _, _ => .ub
  | fuel + 1, c :: rest, s, slop, time, out =>
    addParents g o c s rest >>= fun r =>
    if r.1.unint c then
      markParents g c r.1 >>= fun s =>
      if stillInteresting g s r.2 time slop = 0 then .ok (s, out.reverse)
      else limitLoop g o fuel r.2 s (stillInteresting g s r.2 time slop) time out
    else if o.hides c then limitLoop g o fuel r.2 r.1 slop time out
    else limitLoop g o fuel r.2 r.1 slop (g.time c) (c :: out)

/-- [src/libgit2/revwalk.c:471-505] -/
def limitList (g : Repo) (o : Opts) (l : List Nat) (s : WS) : Res (WS × List Nat) := limitLoop g o (l.length + edges g + 1) l s SLOP maxTime []

/-! ### sorting -/

/-- `in_degree` of all nodes; 16 bits [src/libgit2/commit_list.h:37] -/
abbrev Deg := Nat → Nat

/-- [no code: `in_degree = n`] -/
def setDeg (d : Deg) (c n : Nat) : Deg := fun x => if x = c then n else d x

/-- src/libgit2/revwalk.c:553-555; the degrees are 0 before (new nodes, and `git_revwalk_reset`) -/
def startDeg (l : List Nat) : Deg := fun c => if c ∈ l then 1 else 0

/-- src/libgit2/revwalk.c:563-567 -/
def countKids : List Nat → Deg → Deg
  | [], d => d
  | p :: ps, d => countKids ps (if d p ≠ 0 then setDeg d p ((d p + 1) % 65536) else d)

/-- src/libgit2/revwalk.c:562-568 -/
def countAll (g : Repo) (s : WS) : List Nat → Deg → Deg
  | [], d => d
  | c :: l, d => countAll g s l (countKids (kids g s c) d)

/-- src/libgit2/revwalk.c:574-579 -/
def pushTips (d : Deg) : List Nat → PQueue.PQ Nat → Option (PQueue.PQ Nat)
  | [], q => some q
  | c :: l, q => if d c = 1 then (match PQueue.insert q c with | none => none | some q => pushTips d l q) else pushTips d l q

/-- the parents of a commit that was taken off the queue: src/libgit2/revwalk.c:593-601 -/
def releaseKids : List Nat → Deg → PQueue.PQ Nat → Option (Deg × PQueue.PQ Nat)
  | [], d, q => some (d, q)
  | p :: ps, d, q =>
    if d p = 0 then releaseKids ps d q
    else if d p - 1 = 1 then (match PQueue.insert q p with | none => none | some q => releaseKids ps (setDeg d p (d p - 1)) q)
    else releaseKids ps (setDeg d p (d p - 1)) q

/-- src/libgit2/revwalk.c:592-607; `out` is the new list, latest first -/
def topoLoop (g : Repo) (s : WS) : Nat → Deg → PQueue.PQ Nat → List Nat → Res (List Nat)
  | 0, _, _, _ => .ub
  | fuel + 1, d, q, out =>
    match (PQueue.pop q).1 with
    | none => .ok out.reverse
    | some c =>
      match releaseKids (kids g s c) d (PQueue.pop q).2 with
      | none => .ub
      | some r => topoLoop g s fuel (setDeg r.1 c 0) r.2 (c :: out)

/-- `git_pqueue_reverse`: src/util/pqueue.h:40; only the contents are reversed -/
def reverseQ (q : PQueue.PQ Nat) : PQueue.PQ Nat := { q with contents := q.contents.reverse }

/-- `sort_in_topological_order`: src/libgit2/revwalk.c:531-615 -/
def topoSort (g : Repo) (o : Opts) (s : WS) (l : List Nat) : Res (List Nat) :=
  let d := countAll g s l (startDeg l)
  match pushTips d l (PQueue.init false 8 (if o.time then some (timeCmp g) else none)) with
  | none => .ub
  | some q => topoLoop g s (l.length + 1) d (if o.time then q else reverseQ q) []

/-- `revwalk_next_timesort` called until the end, on the queue filled by `revwalk_enqueue_timesort`: src/libgit2/revwalk.c:284-308 -/
def pushTimes : List Nat → PQueue.PQ Nat → Option (PQueue.PQ Nat)
  | [], q => some q
  | c :: l, q => match PQueue.insert q c with | none => none | some q => pushTimes l q

/-- [src/libgit2/revwalk.c:294-308, until the queue is empty] -/
def popTimes : Nat → PQueue.PQ Nat → List Nat
  | 0, _ => []
  | fuel + 1, q => match (PQueue.pop q).1 with | none => [] | some c => c :: popTimes fuel (PQueue.pop q).2

/-- [src/libgit2/revwalk.c:284-308, 672-690] -/
def timeSort (g : Repo) (l : List Nat) : Res (List Nat) :=
  match pushTimes l (PQueue.init false 8 (some (timeCmp g))) with
  | none => .ub
  | some q => .ok (popTimes l.length q)

/-- `revwalk_next_unsorted` called until the end, with `get_revision` adding the parents: src/libgit2/revwalk.c:310-324, :508-532 -/
def lazyLoop (g : Repo) (o : Opts) : Nat → List Nat → WS → List Nat → Res (WS × List Nat)
  | _, [], s, out => .ok (s, out.reverse)
  | 0, _ :: _, _, _ => .ub
  | fuel + 1, c :: rest, s, out => addParents g o c s rest >>= fun r => lazyLoop g o fuel r.2 r.1 (c :: out)

/-! ### the walk -/

/-- the walk before it starts: the bits, `user_input`, `did_hide`, `did_push` [src/libgit2/revwalk.h:21-49] -/
structure Pre where
  s : WS
  input : List Nat
  hid : Bool
  pushed : Bool

/-- `git_revwalk_push` and `git_revwalk_hide` (`hide` tells which) of a commit: `git_revwalk__push_commit`, src/libgit2/revwalk.c:69-104 -/
def pushOne (w : Pre) (c : Nat) (hide : Bool) : Pre :=
  if w.s.unint c then w
  else ⟨{ w.s with unint := if hide then mark w.s.unint c else w.s.unint }, c :: w.input, w.hid || hide, w.pushed || !hide⟩

/-- [src/libgit2/revwalk.c:106-125, in order] -/
def pushes : Pre → List (Nat × Bool) → Pre
  | w, [] => w
  | w, (c, hide) :: l => pushes (pushOne w c hide) l

/-- the first loop of `prepare_walk`: src/libgit2/revwalk.c:635-659; the commits, in order -/
def gather (g : Repo) : List Nat → WS → List Nat → Res (WS × List Nat)
  | [], s, l => .ok (s, l)
  | c :: cs, s, l =>
    parse g s c >>= fun s =>
    (if s.unint c then markParents g c s else .ok s) >>= fun s =>
    if s.seen c then gather g cs s l else gather g cs { s with seen := mark s.seen c } (l ++ [c])

/-- `walk->limited`: set by hiding, a sorting and a callback [src/libgit2/revwalk.c:81, 763, 845] -/
def limited (o : Opts) (hid : Bool) : Bool := hid || o.topo || o.time || o.reverse || o.hideCb.isSome

/-- the commits in the order of the walk, with the bits as they are at the end; those that are uninteresting by then are skipped [src/libgit2/revwalk.c:294-345] -/
def ordered (g : Repo) (o : Opts) (hid : Bool) (s : WS) (l : List Nat) : Res (WS × List Nat) :=
  if limited o hid then
    limitList g o l s >>= fun r =>
    (if o.topo then topoSort g o r.1 r.2 else if o.time then timeSort g r.2 else .ok r.2) >>= fun l => .ok (r.1, l)
  else lazyLoop g o (l.length + edges g + 1) l s []

/-- A whole walk: the calls of `git_revwalk_push` and `git_revwalk_hide`, then `git_revwalk_next` until it gives GIT_ITEROVER: src/libgit2/revwalk.c:617-701,
:787-810. `parsed` are the nodes that were parsed in walks before. -/
def walk (g : Repo) (o : Opts) (parsed : Nat → Bool) (calls : List (Nat × Bool)) : Res (List Nat) :=
  let w := pushes ⟨⟨parsed, fun _ => false, fun _ => false, fun _ => false⟩, [], false, false⟩ calls
  if w.pushed then
    gather g w.input w.s [] >>= fun r =>
    ordered g o w.hid r.1 r.2 >>= fun r =>
    let l := r.2.filter fun c => !r.1.unint c
    .ok (if o.reverse then l.reverse else l)
  else .ok []

end Verif.Revwalk
