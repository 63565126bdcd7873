import Verif.Patch.Spec
import Verif.MergeFile.Model
/-! # What merging three texts means, stated independently of the code -/
namespace Verif.MergeFile.Spec

/-- what became of a place where the texts differ: only we changed it, only they did, both did the same, or both did different things -/
inductive Verdict where
  | ours | theirs | both | conflict
  deriving DecidableEq

/-- lines that both sides have in common, and what the ancestor has there -/
structure Common where
  base : List Bytes
  lines : List Bytes

/-- a place where the sides differ, and the common lines after it -/
structure Hunk where
  verdict : Verdict
  base : List Bytes
  ours : List Bytes
  theirs : List Bytes
  after : Common

/-- the verdict is right -/
def Hunk.Ok (h : Hunk) : Prop := match h.verdict with
  | .ours => h.theirs = h.base
  | .theirs => h.ours = h.base
  | .both => h.ours = h.theirs
  | .conflict => True

/-- The three texts are made of common lines and hunks one after another; between two hunks there is at least one common line: changes that touch are one hunk. -/
structure ThreeWay (base ours theirs : List Bytes) (start : Common) (hs : List Hunk) : Prop where
  base : base = start.base ++ (hs.map fun h => h.base ++ h.after.base).flatten
  ours : ours = start.lines ++ (hs.map fun h => h.ours ++ h.after.lines).flatten
  theirs : theirs = start.lines ++ (hs.map fun h => h.theirs ++ h.after.lines).flatten
  ok : ∀ h ∈ hs, h.Ok
  apart : ∀ h ∈ hs.dropLast, h.after.lines ≠ []

/-- how to show conflicts: take a side, both, or mark them; with the ancestor or not -/
inductive Favor where
  | none | ours | theirs | union
  deriving DecidableEq

/-- the options that show in the result -/
structure Style where
  favor : Favor
  withBase : Bool
  marks : Nat
  name1 : Option Bytes
  name2 : Option Bytes
  ancestor : Option Bytes

/-- the line that marks a conflict -/
def marker (s : Style) (c : UInt8) (name : Option Bytes) (eol : Bytes) : Bytes :=
  List.replicate s.marks c ++ (match name with | .none => [] | some n => c!" " :: n) ++ eol

/-- lines, the last of them ended if it is not -/
def ended (eol : Bytes) (ls : List Bytes) : Bytes :=
  ls.flatten ++ (if ls = [] ∨ (ls.getLast?.bind List.getLast?) = some c!"\n" then [] else eol)

/-- the line ends in CR LF; in LF alone -/
def Crlf (l : Bytes) : Prop := ∃ x, l = x ++ [13, c!"\n"]
def Lf (l : Bytes) : Prop := (∃ x, l = x ++ [c!"\n"]) ∧ ¬ Crlf l

/-- How the lines that the merge adds end: in CR LF only if the ancestor's first line does; in LF if either side has lines that end in LF and none in CR LF; in CR LF if the ancestor's first line does and
neither side has a line that ends in LF alone. -/
structure Eol (base ours theirs : List Bytes) (eol : Bytes) : Prop where
  two : eol = [c!"\n"] ∨ eol = [13, c!"\n"]
  first : eol = [13, c!"\n"] → ∃ l, base.head? = some l ∧ Crlf l
  lf : ∀ side, side = ours ∨ side = theirs → (∃ l ∈ side, Lf l) → (∀ l ∈ side, ¬ Crlf l) → eol = [c!"\n"]
  crlf : (∃ l, base.head? = some l ∧ Crlf l) → (∀ l ∈ ours, ¬ Lf l) → (∀ l ∈ theirs, ¬ Lf l) → eol = [13, c!"\n"]

/-- what a hunk looks like in the result -/
def Shows (s : Style) (base ours theirs : List Bytes) (h : Hunk) (out : Bytes) : Prop := match h.verdict with
  | .ours => out = h.ours.flatten
  | .theirs => out = h.theirs.flatten
  | .both => out = h.ours.flatten
  | .conflict => match s.favor with
    | .ours => out = h.ours.flatten
    | .theirs => out = h.theirs.flatten
    | .union => ∃ eol, Eol base ours theirs eol ∧ out = ended eol h.ours ++ h.theirs.flatten
    | .none => ∃ eol, Eol base ours theirs eol ∧ out = marker s c!"<" s.name1 eol ++ ended eol h.ours ++
        (if s.withBase then marker s c!"|" s.ancestor eol ++ ended eol h.base else []) ++
        marker s c!"=" .none eol ++ ended eol h.theirs ++ marker s c!">" s.name2 eol

/-- all hunks, each with the common lines after it -/
inductive ShowsAll (s : Style) (base ours theirs : List Bytes) : List Hunk → Bytes → Prop
  | nil : ShowsAll s base ours theirs [] []
  | cons {h hs a b} : Shows s base ours theirs h a → ShowsAll s base ours theirs hs b → ShowsAll s base ours theirs (h :: hs) (a ++ h.after.lines.flatten ++ b)

/-- the number of conflicts that are left -/
def conflicts (s : Style) (hs : List Hunk) : Nat := if s.favor = .none then (hs.filter fun h => decide (h.verdict = .conflict)).length else 0

/-- `out` is a merge of the three texts with `n` conflicts -/
def Merged (s : Style) (base ours theirs : List Bytes) (out : Bytes) (n : Nat) : Prop :=
  ∃ start hs, ThreeWay base ours theirs start hs ∧ (∃ b, ShowsAll s base ours theirs hs b ∧ out = start.lines.flatten ++ b) ∧ n = conflicts s hs

/-! ## The search for differences -/
open Verif.Patch.Spec (Step scriptOld scriptNew)
open Verif.Patch (Change changesOf)

/-- for any two lists of lines that fit into memory, a script from one to the other: with something in every change, and common lines between changes -/
def Finds (diff : List Bytes → List Bytes → Res (List Change)) : Prop := ∀ a b : List Bytes, a.length + b.length < 2 ^ 62 →
  ∃ (steps : List Step) (tail : List Bytes), diff a b = .ok (changesOf 0 0 steps) ∧ scriptOld steps tail = a ∧ scriptNew steps tail = b ∧ (∀ s ∈ steps, s.del ≠ [] ∨ s.add ≠ []) ∧ ∀ s ∈ steps.tail, s.same ≠ []

/-- two changes of the ancestor, `x` to our side and `y` to theirs, do not meet: there is a line of the ancestor between them; or they are the same -/
def Compatible (ours theirs : List Bytes) (x y : Change) : Prop :=
  x.i1 + x.chg1 < y.i1 ∨ y.i1 + y.chg1 < x.i1 ∨ (x.i1 = y.i1 ∧ x.chg1 = y.chg1 ∧ x.chg2 = y.chg2 ∧ (ours.drop x.i2).take x.chg2 = (theirs.drop y.i2).take y.chg2)

/-! ## `git_merge_file` -/

/-- a name for a side in the markers: what the caller says, or the path, or `file.txt` -/
def nameFor (label path : Option Bytes) : Bytes := (label.orElse fun _ => path).getD b!"file.txt"

/-- what the options ask for -/
def styleFor (o : Options) (ancestor : Option Input) (ours theirs : Input) : Style where
  favor := if o.favor = 1 then .ours else if o.favor = 2 then .theirs else if o.favor = 3 then .union else .none
  withBase := o.diff3 || o.zdiff3
  marks := if o.markerSize = 0 then 7 else o.markerSize
  name1 := some (nameFor o.ourLabel ours.path)
  name2 := some (nameFor o.theirLabel theirs.path)
  ancestor := ancestor.map fun a => nameFor o.ancestorLabel a.path

/-- the file is a text: no NUL among the first 8000 bytes, and not more than 1023 MiB -/
def Text (i : Input) : Prop := 0 ∉ i.data.take 8000 ∧ i.data.length ≤ 1023 * 2 ^ 20

/-- the path of a file, or `file.txt` -/
def pathFor (i : Input) : Bytes := i.path.getD b!"file.txt"

/-- Where the result goes: if one side did not rename the file, the other's path; without an ancestor, the path if it is the same on both sides; else none. -/
inductive Path (ours theirs : Input) : Option Input → Option Bytes → Prop
  | new : pathFor ours = pathFor theirs → Path ours theirs none (some (pathFor ours))
  | newOther : pathFor ours ≠ pathFor theirs → Path ours theirs none none
  | theirs {a} : pathFor ours = pathFor a → Path ours theirs (some a) (some (pathFor theirs))
  | ours {a} : pathFor ours ≠ pathFor a → pathFor theirs = pathFor a → Path ours theirs (some a) (some (pathFor ours))
  | none {a} : pathFor ours ≠ pathFor a → pathFor theirs ≠ pathFor a → Path ours theirs (some a) none

/-- the mode of a file, by default that of a plain file -/
def modeFor (i : Input) : Nat := if i.mode = 0 then 0o100644 else i.mode

/-- The mode of the result: theirs if we did not change it, else ours; a new file is executable if it is on either side. -/
inductive Mode (ours theirs : Input) : Option Input → Nat → Prop
  | newExec : modeFor ours = 0o100755 ∨ modeFor theirs = 0o100755 → Mode ours theirs none 0o100755
  | new : modeFor ours ≠ 0o100755 → modeFor theirs ≠ 0o100755 → Mode ours theirs none 0o100644
  | theirs {a} : modeFor ours = modeFor a → Mode ours theirs (some a) (modeFor theirs)
  | ours {a} : modeFor ours ≠ modeFor a → Mode ours theirs (some a) (modeFor ours)

/-- the data of an ancestor; none is an empty file -/
def dataFor (a : Option Input) : Bytes := (a.map Input.data).getD []

end Verif.MergeFile.Spec
