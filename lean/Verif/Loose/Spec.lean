import Verif.Dec
/-! # The header of an object (gitformat-loose / git-hash-object: `<type> <size>\0`) -/
namespace Verif.Loose.Spec

/-- the names of the four types -/
def typeName : Int → Option Bytes
  | 1 => some b!"commit"
  | 2 => some b!"tree"
  | 3 => some b!"blob"
  | 4 => some b!"tag"
  | _ => none

/-- the header of an object of `n` bytes -/
def Header (t : Int) (n : Nat) (h : Bytes) : Prop := ∃ name, typeName t = some name ∧ h = name ++ b!" " ++ decimal n ++ [0]

end Verif.Loose.Spec
