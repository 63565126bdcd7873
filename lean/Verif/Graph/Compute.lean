import Verif.Graph.Model
import Verif.PQueue.Perm
/-! # The model in a form the kernel can evaluate

The heap operations are defined by well-founded recursion, which does not compute; here they are replaced by the equal `insertF` and `popF`. -/
namespace Verif.Graph
open PQueue (PQ)

def insertC (q : PQ Nat) (x : Nat) : Option (PQ Nat) := if q.cap = none then PQueue.insertF q x else PQueue.insert q x

theorem insertC_eq (q : PQ Nat) (x : Nat) : PQueue.insert q x = insertC q x := by
  unfold insertC
  by_cases h : q.cap = none
  · rw [if_pos h, PQueue.insertF_eq h]
  · rw [if_neg h]

def paintParentsC (g : Repo) (flags : Flags) : List Nat → PQ Nat → Marks → Res (PQ Nat × Marks)
  | [], q, fl => .ok (q, fl)
  | p :: ps, q, fl =>
    if (fl p).has flags then paintParentsC g flags ps q fl
    else
      match g.parents p with
      | none => .err (-1)
      | some _ =>
        match insertC q p with
        | none => .ub
        | some q => paintParentsC g flags ps q (upd fl p ((fl p).or flags))

theorem paintParentsC_eq (g : Repo) (F : Flags) : ∀ ps q fl, paintParents g F ps q fl = paintParentsC g F ps q fl
  | [], _, _ => rfl
  | p :: ps, q, fl => by
    rw [paintParents, paintParentsC, paintParentsC_eq g F ps]
    simp only [insertC_eq, paintParentsC_eq g F ps]
    rfl

def visitC (g : Repo) (s : State) (c : Nat) (q : PQ Nat) : Res State :=
  let fl := if isResult (s.fl c) then upd s.fl c { (s.fl c) with result := true } else s.fl
  let ps := (g.parents c).getD []
  paintParentsC g (passed (s.fl c)) ps q fl >>= fun r =>
  .ok ⟨r.1, r.2, if isResult (s.fl c) then c :: s.res else s.res, if ps = [] then c :: s.roots else s.roots⟩

theorem visitC_eq (g : Repo) (s : State) (c : Nat) (q : PQ Nat) : visit g s c q = visitC g s c q := by
  unfold visit visitC
  simp only [paintParentsC_eq]

def paintLoopC (interesting : State → Bool) (g : Repo) : Nat → State → Res State
  | 0, _ => .ub
  | fuel + 1, s =>
    if interesting s then
      match (PQueue.popF s.q).1 with
      | none => .ok s
      | some c => visitC g s c (PQueue.popF s.q).2 >>= paintLoopC interesting g fuel
    else .ok s

theorem paintLoopC_eq (I : State → Bool) (g : Repo) : ∀ fuel, paintLoop I g fuel = paintLoopC I g fuel
  | 0 => rfl
  | fuel + 1 => by
    funext s
    rw [paintLoop, paintLoopC, paintLoopC_eq I g fuel]
    simp only [PQueue.popF_eq, visitC_eq]
    rfl

def paintTwosC (g : Repo) : List Nat → PQ Nat → Marks → Res (PQ Nat × Marks)
  | [], q, fl => .ok (q, fl)
  | t :: ts, q, fl =>
    match g.parents t with
    | none => .err (-1)
    | some _ =>
      match insertC q t with
      | none => .ub
      | some q => paintTwosC g ts q (upd fl t { (fl t) with p2 := true })

theorem paintTwosC_eq (g : Repo) : ∀ ts q fl, paintTwos g ts q fl = paintTwosC g ts q fl
  | [], _, _ => rfl
  | t :: ts, q, fl => by
    rw [paintTwos, paintTwosC]
    simp only [insertC_eq, paintTwosC_eq g ts]
    rfl

def paintDownC (g : Repo) (fl : Marks) (one : Nat) (twos : List Nat) : Res State :=
  match insertC (PQueue.init false (twos.length * 2) (some (generationCmp g))) one with
  | none => .ub
  | some q =>
    paintTwosC g twos q (upd fl one { (fl one) with p1 := true }) >>= fun r =>
    paintLoopC interesting g (paintFuel g twos.length) ⟨r.1, r.2, [], []⟩

theorem paintDownC_eq (g : Repo) (fl : Marks) (one : Nat) (twos : List Nat) : paintDown g fl one twos = paintDownC g fl one twos := by
  unfold paintDown paintDownC
  simp only [insertC_eq, paintTwosC_eq, paintLoopC_eq]
  rfl

def redundantStepC (g : Repo) (commits : List Nat) (i : Nat) (redundant : List Bool) (fl : Marks) : Res (List Bool × Marks) :=
  if redundant.getD i false then .ok (redundant, fl)
  else
    let commit := commits.getD i 0
    let work := workOf commits redundant i
    paintDownC g fl commit (work.map (·.2)) >>= fun s =>
    let r1 := if (s.fl commit).p2 then redundant.set i true else redundant
    let r2 := work.foldl (fun r w => if (s.fl w.2).p1 then r.set w.1 true else r) r1
    clearMarks g [commit] s.fl >>= fun fl => clearMarks g (work.map (·.2)) fl >>= fun fl => .ok (r2, fl)

def redundantLoopC (g : Repo) (commits : List Nat) : List Nat → List Bool → Marks → Res (List Bool)
  | [], r, _ => .ok r
  | i :: is, r, fl => redundantStepC g commits i r fl >>= fun x => redundantLoopC g commits is x.1 x.2

theorem redundantLoopC_eq (g : Repo) (commits : List Nat) : ∀ is r fl, redundantLoop g commits is r fl = redundantLoopC g commits is r fl
  | [], _, _ => rfl
  | i :: is, r, fl => by
    rw [redundantLoop, redundantLoopC]
    simp only [redundantLoopC_eq g commits is]
    unfold redundantStep redundantStepC
    simp only [paintDownC_eq]

def removeRedundantC (g : Repo) (fl : Marks) (commits : List Nat) : Res (List Nat) :=
  if commits.all (fun c => (g.parents c).isSome) then
    redundantLoopC g commits (List.range commits.length) (List.replicate commits.length false) fl >>= fun r =>
    .ok (((List.range commits.length).filter fun j => !(r.getD j false)).map fun j => commits.getD j 0)
  else .err (-1)

def basesManyC (g : Repo) (one : Nat) (twos : List Nat) : Res (List Nat) :=
  if twos = [] then .ok []
  else if one ∈ twos then .ok [one]
  else
    match g.parents one with
    | none => .err (-1)
    | some _ =>
      paintDownC g clean one twos >>= fun s =>
      let result := (s.res.filter fun c => !(s.fl c).stale).foldl (fun l c => insertByDate g c l) []
      if result.length > 1 then
        clearMarks g [one] s.fl >>= fun fl => clearMarks g twos fl >>= fun fl =>
        removeRedundantC g fl result >>= fun l => .ok (l.foldl (fun l c => insertByDate g c l) [])
      else .ok result

theorem basesManyC_eq (g : Repo) (one : Nat) (twos : List Nat) : basesMany g one twos = basesManyC g one twos := by
  unfold basesMany basesManyC
  simp only [paintDownC_eq, removeRedundant, removeRedundantC, redundantLoopC_eq]
  rfl

def mergeBasesC (g : Repo) (one two : Nat) : Res (List Nat) :=
  match basesManyC g one [two] with
  | .ok [] => .err ENOTFOUND
  | .ok l => .ok l
  | .err _ => .err (-1)
  | .ub => .ub

theorem mergeBasesC_eq (g : Repo) (one two : Nat) : mergeBases g one two = mergeBasesC g one two := by
  unfold mergeBases mergeBasesC
  rw [basesManyC_eq]
  rfl

def markParentsC (g : Repo) (one two : Nat) : Res Marks :=
  if one = two then .ok (upd clean one ⟨true, true, true, false⟩)
  else
    match g.parents one with
    | none => .err (-1)
    | some _ =>
      match insertC (PQueue.init false 2 (some (generationCmp g))) one with
      | none => .ub
      | some q =>
        paintTwosC g [two] q (upd clean one { noFlags with p1 := true }) >>= fun r =>
        paintLoopC interestingRoots g (paintFuel g 1) ⟨r.1, r.2, [], []⟩ >>= fun s => .ok s.fl

def pushAllC (q : PQ Nat) : List Nat → Option (PQ Nat)
  | [] => some q
  | p :: ps => match insertC q p with | none => none | some q => pushAllC q ps

theorem pushAllC_eq : ∀ ps q, pushAll q ps = pushAllC q ps
  | [], _ => rfl
  | p :: ps, q => by
    rw [pushAll, pushAllC]
    simp only [insertC_eq, pushAllC_eq ps]
    rfl

def countLoopC (g : Repo) : Nat → PQ Nat → Marks → Nat × Nat → Res (Nat × Nat)
  | 0, _, _, _ => .ub
  | fuel + 1, q, fl, n =>
    match (PQueue.popF q).1 with
    | none => .ok n
    | some c =>
      if (fl c).result || ((fl c).p1 && (fl c).p2) then countLoopC g fuel (PQueue.popF q).2 fl n
      else
        match pushAllC (PQueue.popF q).2 ((g.parents c).getD []) with
        | none => .ub
        | some q => countLoopC g fuel q (upd fl c { (fl c) with result := true })
            (if (fl c).p1 then (n.1 + 1, n.2) else if (fl c).p2 then (n.1, n.2 + 1) else n)

theorem countLoopC_eq (g : Repo) : ∀ fuel q fl n, countLoop g fuel q fl n = countLoopC g fuel q fl n
  | 0, _, _, _ => rfl
  | fuel + 1, q, fl, n => by
    rw [countLoop, countLoopC]
    simp only [PQueue.popF_eq, pushAllC_eq, countLoopC_eq g fuel]
    rfl

def aheadBehindC (g : Repo) (one two : Nat) : Res (Nat × Nat) :=
  markParentsC g one two >>= fun fl =>
  match pushAllC (PQueue.init false 2 (some (timeCmp g))) [one, two] with
  | none => .ub
  | some q => countLoopC g (edges g + 3) q fl (0, 0)

theorem aheadBehindC_eq (g : Repo) (one two : Nat) : aheadBehind g one two = aheadBehindC g one two := by
  unfold aheadBehind aheadBehindC markParents markParentsC countAB
  simp only [insertC_eq, paintTwosC_eq, paintLoopC_eq, pushAllC_eq, countLoopC_eq]
  rfl

end Verif.Graph
