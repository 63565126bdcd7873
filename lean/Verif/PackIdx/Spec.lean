import Verif.Oid.Spec
import Verif.BE
/-! # Finding an object by an abbreviated id -/
namespace Verif.PackIdx.Spec
open Verif.Oid.Spec

/-- the first `len` hexadecimal digits of the ids agree -/
def SamePrefix (len : Nat) (a b : Bytes) : Prop := (hex a).take len = (hex b).take len
instance (len : Nat) (a b : Bytes) : Decidable (SamePrefix len a b) := by unfold SamePrefix; infer_instance

/-- the abbreviation is filled up with zeros -/
def Padded (len : Nat) (short : Bytes) : Prop := ∀ c ∈ (hex short).drop len, c = c!"0"
instance (len : Nat) (a : Bytes) : Decidable (Padded len a) := by unfold Padded; infer_instance

/-- the result of looking an abbreviation up among ids with some data: the data of the only id with that prefix -/
inductive Looked {α : Type} (entries : List (Bytes × α)) (short : Bytes) (len : Nat) : Res (α × Bytes) → Prop where
  | one (id : Bytes) (x : α) : (id, x) ∈ entries → SamePrefix len short id → (∀ e ∈ entries, SamePrefix len short e.1 → e = (id, x)) →
      Looked entries short len (.ok (x, id))
  | none : (∀ e ∈ entries, ¬ SamePrefix len short e.1) → Looked entries short len (.err (-3))
  | more (d e : Bytes × α) : d ∈ entries → e ∈ entries → d.1 ≠ e.1 → SamePrefix len short d.1 → SamePrefix len short e.1 →
      Looked entries short len (.err (-5))

/-- the fan-out table at `base` counts the ids by their first byte: entry `b` has the number of ids whose first byte is at most `b` -/
def FanRight (file : Bytes) (base : Nat) (ids : List Bytes) : Prop :=
  ∀ b < 256, ∃ v, rd32 file (base + 4 * b) = .ok v ∧ v.toNat = (ids.filter fun id => (id.headD 0).toNat ≤ b).length

end Verif.PackIdx.Spec
