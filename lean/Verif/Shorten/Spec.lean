import Verif.Base
import Verif.Oid.Spec
/-! # Abbreviations that identify -/
namespace Verif.Shorten.Spec
open Oid.Spec (hexVal)

/-- `t` is a text that begins with the digits `ds` of an id -/
def IdText (t : Bytes) (ds : List UInt8) : Prop := ds.length = 40 ∧ (t.take 40).mapM hexVal = some ds

/-- how many of the ids added begin with `p` -/
def howMany (added : List (List UInt8)) (p : List UInt8) : Nat := (added.filter fun ds => decide (p <+: ds)).length

/-- `l` digits identify every id added: no `l` digits are the first of two of them (an id that was added twice is two of them) -/
def Identifies (added : List (List UInt8)) (l : Nat) : Prop := ∀ p : List UInt8, p.length = l → howMany added p ≤ 1

/-- `l` is the least number, from `min` on and not zero, that identifies every id added -/
def Least (min : Nat) (added : List (List UInt8)) (l : Nat) : Prop :=
  min ≤ l ∧ 1 ≤ l ∧ Identifies added l ∧ ∀ k, min ≤ k → 1 ≤ k → k < l → ¬ Identifies added k

end Verif.Shorten.Spec
