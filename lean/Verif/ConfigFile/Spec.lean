import Verif.ConfigFile.Model
/-! # Specification for configuration files -/
namespace Verif.ConfigFile
open Commit (isspace)

/-- Nothing but a comment follows a section header on its line, and the file does not end in a value that asks for a further line. -/
def TidyEvent : Event → Prop
  | .sect _ _ inl => inl = false
  | .var _ _ _ _ inl unfinished => inl = false ∧ unfinished = false
  | .comment _ _ => True

/-- the file can be parsed and all it says is tidy -/
def Tidy (file : Bytes) : Prop := ∃ p, parse file = .ok p ∧ ∀ e ∈ p.1, TidyEvent e

/-- Values that survive: they are C strings, and if they start or end with a carriage return, vertical tab or form feed, then they need quotes for
another reason (they start or end with a space or contain a comment character). -/
def Value (v : Bytes) : Prop :=
  0 ∉ v ∧ ((∃ c, (c = c!";" ∨ c = c!"#") ∧ c ∈ v) ∨ v.head? = some c!" " ∨ v.getLast? = some c!" " ∨
    ((∀ c, v.head? = some c → c ∉ b!"\r\x0b\x0c") ∧ (∀ c, v.getLast? = some c → c ∉ b!"\r\x0b\x0c")))

/-- Names that survive: a section name and a variable name of letters, digits and dashes starting with a letter or digit, and possibly a
subsection between dots, which is a C string without newline, tab or backspace. -/
def Name (name : Bytes) : Prop :=
  0 ∉ name ∧ c!"\t" ∉ name ∧ 8 ∉ name

/-- the entries of the other variables -/
def others (key : Bytes) (l : List Entry) : List Entry := l.filter fun e => e.1 ≠ key

/-- the values of one variable, in order -/
def values (key : Bytes) (l : List Entry) : List (Option Bytes) := (l.filter fun e => e.1 = key).map (·.2)

end Verif.ConfigFile
