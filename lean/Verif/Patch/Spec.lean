import Verif.Patch.ModelEmit
/-! # What a patch says -/
namespace Verif.Patch
namespace Spec

/-- a line of a hunk: it stays, it is removed, or it is added -/
inductive Piece where
  | keep (l : Bytes)
  | del (l : Bytes)
  | add (l : Bytes)
  deriving DecidableEq, Repr

/-- the lines before -/
def before : List Piece → List Bytes
  | [] => []
  | .keep l :: ps => l :: before ps
  | .del l :: ps => l :: before ps
  | .add _ :: ps => before ps

/-- the lines after -/
def after : List Piece → List Bytes
  | [] => []
  | .keep l :: ps => l :: after ps
  | .del _ :: ps => after ps
  | .add l :: ps => l :: after ps

/-- a part of a file: lines that no hunk mentions, and then a hunk -/
structure Part where
  gap : List Bytes
  pieces : List Piece

/-- the old file -/
def oldOf : List Part → List Bytes → List Bytes
  | [], tail => tail
  | p :: ps, tail => p.gap ++ before p.pieces ++ oldOf ps tail

/-- the new file, if `chosen` hunks are applied -/
def chosenOf (chosen : Nat → Bool) : Nat → List Part → List Bytes → List Bytes
  | _, [], tail => tail
  | k, p :: ps, tail => p.gap ++ (if chosen k then after p.pieces else before p.pieces) ++ chosenOf chosen (k + 1) ps tail

/-- the new file -/
def newOf : List Part → List Bytes → List Bytes
  | [], tail => tail
  | p :: ps, tail => p.gap ++ after p.pieces ++ newOf ps tail

/-- the lines of a text: each but the last ends with a newline, which is nowhere else -/
def Lines (ls : List Bytes) (text : Bytes) : Prop :=
  ls.flatten = text ∧ (∀ l ∈ ls, l ≠ []) ∧ (∀ l ∈ ls, c!"\n" ∉ l.dropLast) ∧ ∀ l ∈ ls.dropLast, l.getLast? = some c!"\n"

/-- a step of an edit script: lines that are the same in both files, lines that only the old file has, and lines that only the new one has -/
structure Step where
  same : List Bytes
  del : List Bytes
  add : List Bytes

/-- the old file of a script, which ends with lines that are in both -/
def scriptOld : List Step → List Bytes → List Bytes
  | [], tail => tail
  | s :: ss, tail => s.same ++ s.del ++ scriptOld ss tail

/-- the new file of a script -/
def scriptNew : List Step → List Bytes → List Bytes
  | [], tail => tail
  | s :: ss, tail => s.same ++ s.add ++ scriptNew ss tail

end Spec
open Spec

/-- the origin of a piece -/
def originOf : Piece → Origin
  | .keep _ => .context
  | .del _ => .deletion
  | .add _ => .addition

/-- the text of a piece -/
def textOf : Piece → Bytes
  | .keep l => l
  | .del l => l
  | .add l => l

/-- the lines of a hunk show pieces: a line that is followed by a marker may or may not have a newline that is not there -/
inductive Shows : List Line → List Piece → Prop
  | nil : Shows [] []
  | line {l ls p ps} : l.origin = originOf p → l.text = .ok (textOf p) → Shows ls ps → Shows (l :: ls) (p :: ps)
  | marked {l m ls p ps} : l.origin = originOf p → isEof m.origin = true → textOf p ≠ [] → (textOf p).getLast? ≠ some c!"\n" →
      (l.text = .ok (textOf p) ∨ l.text = .ok (textOf p ++ b!"\n")) → Shows ls ps → Shows (l :: m :: ls) (p :: ps)

/-- hunks describe the parts of a file of which `o` old and `n` new lines come before: each shows its pieces, counts them, and says on which line of the
new file they begin (or zero if there is nothing before and after) -/
inductive Describes : Nat → Nat → List Part → List Hunk → Prop
  | nil {o n} : Describes o n [] []
  | cons {o n : Nat} {p : Part} {ps : List Part} {h : Hunk} {hs : List Hunk} : Shows h.lines p.pieces → h.oldLines = ((before p.pieces).length : Int) → h.newLines = ((after p.pieces).length : Int) →
      (h.newStart = (n : Int) + (p.gap.length : Int) + 1 ∨ (h.newStart = 0 ∧ o + n + p.gap.length = 0)) →
      Describes (o + p.gap.length + (before p.pieces).length) (n + p.gap.length + (after p.pieces).length) ps hs → Describes o n (p :: ps) (h :: hs)

/-- the changes of a script as numbers of lines: `p1` old and `p2` new lines come before it -/
def changesOf : Nat → Nat → List Step → List Change
  | _, _, [] => []
  | p1, p2, s :: ss =>
    { i1 := p1 + s.same.length, chg1 := s.del.length, i2 := p2 + s.same.length, chg2 := s.add.length } ::
      changesOf (p1 + s.same.length + s.del.length) (p2 + s.same.length + s.add.length) ss

/-- hunks one after another, each at the line it says: there are the lines before it, and they become the lines after it -/
inductive Edits : List (Nat × List Piece) → List Bytes → List Bytes → Prop
  | nil {l} : Edits [] l l
  | cons {k ps es} {a b out : List Bytes} : a.length = min k (a ++ before ps ++ b).length → Edits es (a ++ after ps ++ b) out → Edits ((k, ps) :: es) (a ++ before ps ++ b) out

/-- where a hunk says it is -/
def placeOf (h : Hunk) : Nat := if h.newStart = 0 then 0 else (h.newStart - 1).toNat

end Verif.Patch
