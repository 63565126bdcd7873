import Verif.Base
/-! # Specification for the index

Words used by the theorems, independent of the model. -/
namespace Verif.Index.Spec

/-- git's order of index keys: by path bytes, then by stage -/
def KeyLt (p : Bytes) (s : Nat) (q : Bytes) (t : Nat) : Prop := p < q ∨ (p = q ∧ s < t)

/-- the path `p` lies below the directory `d` -/
def Below (d p : Bytes) : Prop := ∃ r, p = d ++ c!"/" :: r

/-- one of the two paths is a directory of the other -/
def Clash (p q : Bytes) : Prop := Below p q ∨ Below q p

/-- the file modes the index stores: regular, executable, symbolic link, submodule -/
def StoredMode (m : Nat) : Prop := m = 0o100644 ∨ m = 0o100755 ∨ m = 0o120000 ∨ m = 0o160000

end Verif.Index.Spec
