import Verif.Patch.Spec
/-! # What the differences of two texts are -/
namespace Verif.Xdiff
namespace Spec

/-- the elements that are not marked -/
def kept {α : Type} : List α → List Bool → List α
  | a :: as, m :: ms => if m then kept as ms else a :: kept as ms
  | as, [] => as
  | [], _ => []

/-- the lines of a script that are in both files -/
def common : List Patch.Spec.Step → List Bytes → List Bytes
  | [], tail => tail
  | s :: ss, tail => s.same ++ common ss tail

end Spec
end Verif.Xdiff
