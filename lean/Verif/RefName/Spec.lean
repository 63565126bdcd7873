import Verif.Base
/-! # What a reference name is -/
namespace Verif.RefName.Spec

/-- the components of a name, separated by slashes -/
def components : Bytes → List Bytes
  | [] => [[]]
  | c :: cs =>
    if c = c!"/" then [] :: components cs
    else
      match components cs with
      | [] => [[c]]
      | k :: ks => (c :: k) :: ks

/-- the name with runs of slashes collapsed -/
def squeeze : Bytes → Bytes
  | a :: b :: r => if a = c!"/" ∧ b = c!"/" then squeeze (b :: r) else a :: squeeze (b :: r)
  | r => r

/-- `w` occurs in `s` -/
def Occurs (w s : Bytes) : Prop := ∃ a b, s = a ++ w ++ b

/-- the name without the caret that marks a negative refspec -/
def uncaret : Bytes → Bytes
  | c :: cs => if c = c!"^" then cs else c :: cs
  | [] => []

/-- no control character, no space, none of  ~ ^ : \ ? [ -/
def Plain (c : UInt8) : Prop := 32 < c ∧ c ∉ b!"~^:\\?["

/-- a top-level name such as ORIG_HEAD: capital letters and underscores, and it does not begin or end with an underscore -/
def TopLevel (k : Bytes) : Prop :=
  (∀ c ∈ uncaret k, (c!"A" ≤ c ∧ c ≤ c!"Z") ∨ c = c!"_") ∧ k.head? ≠ some c!"_" ∧ k.getLast? ≠ some c!"_"

/-- The rules for reference names. -/
structure Valid (onelevel pattern shorthand : Bool) (name : Bytes) : Prop where
  nonempty : name ≠ []
  noSlashFirst : name.head? ≠ some c!"/"
  noSlashLast : name.getLast? ≠ some c!"/"
  noDotLast : name.getLast? ≠ some c!"."
  plain : ∀ c ∈ uncaret name, Plain c
  noDotDot : ¬ Occurs b!".." name
  noAtBrace : ¬ Occurs b!"@{" name
  stars : name.count c!"*" ≤ if pattern then 1 else 0
  noDotFirst : ∀ k ∈ components name, k.head? ≠ some c!"."
  noLock : ∀ k ∈ components name, ¬ ∃ a, k = a ++ b!".lock"
  oneLevel : c!"/" ∉ name → onelevel = true ∧ (shorthand = true ∨ TopLevel name ∨ (pattern = true ∧ name = b!"*"))
  manyLevels : c!"/" ∈ name → ¬ TopLevel (name.takeWhile (· != c!"/"))

end Verif.RefName.Spec
