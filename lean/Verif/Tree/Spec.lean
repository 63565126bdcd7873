import Verif.Strtol.Spec
/-! # Tree objects, independently of the code -/
namespace Verif.Tree.Spec
open Verif.Strtol.Spec

/-- a tree object's file mode as text: octal digits (a sign is tolerated), of value below 2^16 -/
def ModeText (m : Bytes) (v : Nat) : Prop :=
  ∃ sgn ds, m = sgn ++ ds ∧ ds ≠ [] ∧ Spells 8 ds v ∧ v < 65536 ∧ (sgn = [] ∨ sgn = b!"+" ∨ (sgn = b!"-" ∧ v = 0))

/-- an object name: not empty, no NUL, at most 65535 bytes -/
def Name (n : Bytes) : Prop := n ≠ [] ∧ (0 : UInt8) ∉ n ∧ n.length ≤ 65535

/-- The format of a tree object: a sequence of records `mode SP name NUL id`. -/
inductive TreeText : Bytes → List (Nat × Bytes × Bytes) → Prop
  | nil : TreeText [] []
  | cons {m v n id rest es} : ModeText m v → Name n → id.length = 20 → TreeText rest es →
      TreeText (m ++ b!" " ++ n ++ [0] ++ id ++ rest) ((v, n, id) :: es)

/-- git sorts tree entries as if the name of a directory ended in a slash -/
def gitKey (mode : Nat) (name : Bytes) : Bytes := if mode / 4096 = 4 then name ++ b!"/" else name

/-- the bytes `o` are the octal numeral of `n` without superfluous zeros -/
def Octal (n : Nat) (o : Bytes) : Prop := Spells 8 o n ∧ o ≠ [] ∧ (o.head? = some c!"0" → n = 0 ∧ o = b!"0")

/-- One edit of a tree builder. -/
inductive Edit where
  | insert (name oid : Bytes) (mode : Nat)
  | remove (name : Bytes)
  | filter (f : Nat × Bytes × Bytes → Bool)
  | clear

/-- contents of a tree being built: for each name at most one mode and id -/
abbrev Contents := Bytes → Option (Nat × Bytes)

/-- Edits on the contents: inserting adds or replaces if `ok` accepts the entry, filtering drops the entries the callback selects. -/
def edit (ok : Bytes → Bytes → Nat → Bool) (c : Contents) : Edit → Contents
  | .insert name oid mode => if ok name oid mode then fun n => if n = name then some (mode, oid) else c n else c
  | .remove name => fun n => if n = name then none else c n
  | .filter f => fun n => match c n with
    | some (m, id) => if f (m, n, id) then none else some (m, id)
    | none => none
  | .clear => fun _ => none

/-- the canonical tree object of some contents: exactly its entries, strictly ascending in git's order, canonical octal modes -/
def Canonical (c : Contents) (bytes : Bytes) : Prop :=
  ∃ es : List (Nat × Bytes × Bytes),
    (∀ m n id, (m, n, id) ∈ es ↔ c n = some (m, id)) ∧
    es.Pairwise (fun a b => gitKey a.1 a.2.1 < gitKey b.1 b.2.1) ∧
    ∃ modes : Nat → Bytes, (∀ m, Octal m (modes m)) ∧
      bytes = es.flatMap (fun e => modes e.1 ++ b!" " ++ e.2.1 ++ [0] ++ e.2.2)

end Verif.Tree.Spec
