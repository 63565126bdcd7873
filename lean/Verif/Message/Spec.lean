import Verif.Base
/-! # What a cleaned-up commit message is -/
namespace Verif.Message.Spec

/-- the pieces between newlines (one more than there are newlines) -/
def lines : Bytes → List Bytes
  | [] => [[]]
  | c :: cs =>
    if c = c!"\n" then [] :: lines cs
    else match lines cs with
      | l :: ls => (c :: l) :: ls
      | [] => [[c]]

/-- a newline behind every line -/
def unlines (ls : List Bytes) : Bytes := ls.flatMap (· ++ b!"\n")

/-- C white space -/
def Space (c : UInt8) : Prop := c ∈ (b!" \t\n\r" ++ [0x0b, 0x0c])
instance (c : UInt8) : Decidable (Space c) := by unfold Space; infer_instance

/-- without trailing white space -/
def trimEnd (l : Bytes) : Bytes := (l.reverse.dropWhile (fun c => decide (Space c))).reverse

/-- a comment line -/
def Comment (cc : UInt8) (l : Bytes) : Prop := l.head? = some cc
instance (cc : UInt8) (l : Bytes) : Decidable (Comment cc l) := by unfold Comment; infer_instance

/-- blank lines: none at the beginning, none at the end, one for each run inside -/
def collapse : List Bytes → List Bytes
  | [] => []
  | l :: ls => if l = [] ∧ ls.head? = some [] then collapse ls else l :: collapse ls

def squeeze (ls : List Bytes) : List Bytes :=
  collapse (((ls.dropWhile (·.isEmpty)).reverse.dropWhile (·.isEmpty)).reverse)

/-- the lines that remain -/
def kept (strip : Bool) (cc : UInt8) (ls : List Bytes) : List Bytes :=
  ls.filter fun l => !(strip && decide (Comment cc l))

/-- the cleaned-up message -/
def clean (strip : Bool) (cc : UInt8) (m : Bytes) : Bytes := unlines (squeeze ((kept strip cc (lines m)).map trimEnd))

end Verif.Message.Spec
