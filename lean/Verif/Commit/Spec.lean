import Verif.Oid.Spec
import Verif.Sig.Spec
import Verif.Commit.Model
import Batteries.Data.List.Basic
/-! # What a commit is -/
namespace Verif.Commit.Spec
open Verif.Sig Verif.Sig.Spec

/-- text made of these lines, each ended by a line feed -/
def unlines (ls : List Bytes) : Bytes := ls.flatMap (· ++ b!"\n")

/-- a line that is not blank -/
def Line (l : Bytes) : Prop := l ≠ [] ∧ c!"\n" ∉ l

/-- the line gives the object id `id` for this header, in hexadecimal digits -/
def IdLine (size : Nat) (header : Bytes) (id line : Bytes) : Prop :=
  ∃ h, line = header ++ h ∧ h.length = 2 * size ∧ h.mapM Oid.Spec.hexVal = some (Oid.Spec.nibbles id)

/-- the line gives the signature `s` for this header -/
def SigLine (header : Bytes) (s : Signature) (line : Bytes) : Prop :=
  ∃ x, line = header ++ x ∧ c!"\n" ∉ x ∧ parseLine x = .ok s

/-- the encoding that these header lines give: the last one does -/
def encodingOf (ls : List Bytes) : Option Bytes :=
  (ls.filter ((b!"encoding ").isPrefixOf ·)).getLast?.map fun l => cstr (l.drop 9)

/-- `data` is a commit: lines for the tree, the parents, the author (further authors are ignored), the committer, further headers `more`, possibly
one without line feed at the very end, `last`; these are the `header`; then a blank line and the message, or nothing. -/
structure IsCommit (size : Nat) (data header tree : Bytes) (parents : List Bytes) (author committer : Signature) (more : List Bytes) (last : Bytes)
    (message : Option Bytes) : Prop where
  parts : data = header ++ (match message with | some m => c!"\n" :: m | none => [])
  exists_lines : ∃ t ps a as c, header = unlines ([t] ++ ps ++ [a] ++ as ++ [c] ++ more) ++ last ∧
    IdLine size b!"tree " tree t ∧ List.Forall₂ (IdLine size b!"parent ") parents ps ∧ SigLine b!"author " author a ∧
    (∀ l ∈ as, ∃ s, SigLine b!"author " s l) ∧ SigLine b!"committer " committer c
  more_lines : ∀ l ∈ more, Line l
  last_line : c!"\n" ∉ last
  last_only : last ≠ [] → message = none

/-- a signature that `git_signature_new` makes of strings in one line, a time that fits in 32 bits and an offset below 15 hours -/
def Made (s : Signature) : Prop :=
  ∃ name email time offset, new name email time offset = .ok s ∧ OneLine name ∧ OneLine email ∧ (0 ≤ time ∧ time < 2 ^ 32) ∧ -900 < offset ∧ offset < 900

/-- a C string -/
def CString (s : Bytes) : Prop := (0 : UInt8) ∉ s
instance (s : Bytes) : Decidable (CString s) := by unfold CString; infer_instance

/-- blank, tab, line feed, vertical tab, form feed, carriage return -/
def Space (c : UInt8) : Prop := c ∈ b!" \t\n" ∨ c = 11 ∨ c = 12 ∨ c = 13
instance (c : UInt8) : Decidable (Space c) := by unfold Space; infer_instance

/-- the line ends here and what follows is the end of the text or a line with only white space -/
def BlankNext (s : Bytes) : Prop :=
  ∃ ws more, s = c!"\n" :: (ws ++ more) ∧ (∀ c ∈ ws, Space c ∧ c ≠ c!"\n") ∧ (more = [] ∨ more.head? = some c!"\n")

/-- `p` is the first paragraph of `m`: what precedes its end or the first line end that is followed by a blank line -/
def FirstParagraph (m p rest : Bytes) : Prop :=
  m = p ++ rest ∧ (rest = [] ∨ BlankNext rest) ∧ ∀ a b, p = a ++ b → b ≠ [] → ¬ BlankNext (b ++ rest)

/-- white space that contains a line feed becomes a blank, white space at the end is dropped -/
inductive Squeezed : Bytes → Bytes → Prop
  | ends (sp : Bytes) : (∀ c ∈ sp, Space c) → Squeezed sp []
  | step (sp : Bytes) (c : UInt8) (rest out : Bytes) : (∀ c ∈ sp, Space c) → ¬ Space c → Squeezed rest out →
      Squeezed (sp ++ c :: rest) ((if c!"\n" ∈ sp then b!" " else sp) ++ c :: out)

/-- a header with this name, value and continuation lines -/
def fieldLines (field v : Bytes) (conts : List Bytes) : List Bytes := (field ++ b!" " ++ v) :: conts.map (c!" " :: ·)

/-- the value of a header with continuation lines -/
def fieldValue (v : Bytes) (conts : List Bytes) : Bytes := v ++ conts.flatMap (c!"\n" :: ·)

end Verif.Commit.Spec
