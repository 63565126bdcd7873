import Verif.Commit.Spec
import Verif.Tag.Model
/-! # What an annotated tag is -/
namespace Verif.Tag.Spec
open Verif.Sig Verif.Commit.Spec

/-- the words for the types of objects -/
inductive TypeWord : Nat → Bytes → Prop
  | commit : TypeWord 1 b!"commit"
  | tree : TypeWord 2 b!"tree"
  | blob : TypeWord 3 b!"blob"
  | tag : TypeWord 4 b!"tag"

/-- `data` is a tag: lines for the object, its type, the name, perhaps the tagger and then further headers; then a blank line and the message, or
nothing directly after these lines -/
structure IsTag (size : Nat) (data target : Bytes) (type : Nat) (name : Bytes) (tagger : Option Signature) (message : Option Bytes) : Prop where
  exists_lines : ∃ o word ts more, data = unlines ([o, b!"type " ++ word, b!"tag " ++ name] ++ ts ++ more) ++ (match message with | some m => c!"\n" :: m | none => []) ∧
    IdLine size b!"object " target o ∧ TypeWord type word ∧ c!"\n" ∉ name ∧
    (match tagger with | some s => ∃ t, ts = [t] ∧ SigLine b!"tagger " s t | none => ts = [] ∧ more = []) ∧
    (∀ l ∈ more, Line l) ∧ (message = none → more = [])

end Verif.Tag.Spec
