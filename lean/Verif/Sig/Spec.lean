import Verif.Base
/-! # What a signature keeps of a name -/
namespace Verif.Sig.Spec

/-- characters not kept at the ends of a name: white space and other control characters, and punctuation that is special in addresses -/
def Crud (c : UInt8) : Prop := c ≤ c!" " ∨ c ∈ b!",:;<>\"\\'"
instance (c : UInt8) : Decidable (Crud c) := by unfold Crud; infer_instance

/-- `t` is `s` without what is not kept at both ends -/
def StripsTo (s t : Bytes) : Prop :=
  ∃ a b, s = a ++ t ++ b ∧ (∀ c ∈ a, Crud c) ∧ (∀ c ∈ b, Crud c) ∧ (∀ c, t.head? = some c → ¬ Crud c) ∧ (∀ c, t.getLast? = some c → ¬ Crud c)

/-- no angle brackets -/
def NoBrackets (s : Bytes) : Prop := c!"<" ∉ s ∧ c!">" ∉ s
instance (s : Bytes) : Decidable (NoBrackets s) := by unfold NoBrackets; infer_instance

/-- in one line, and a C string -/
def OneLine (s : Bytes) : Prop := c!"\n" ∉ s ∧ 0 ∉ s
instance (s : Bytes) : Decidable (OneLine s) := by unfold OneLine; infer_instance

end Verif.Sig.Spec
