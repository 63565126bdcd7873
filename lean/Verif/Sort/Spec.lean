import Verif.Base
/-! # Sorting, stated independently of the algorithm -/
namespace Verif.Sort.Spec

/-- A C comparison function that describes an order: comparing the other way round flips the sign, and `≤` is transitive. -/
structure TotalPreorder {α : Type} (cmp : α → α → Int) : Prop where
  flip : ∀ a b, cmp a b < 0 ↔ 0 < cmp b a
  trans : ∀ a b c, cmp a b ≤ 0 → cmp b c ≤ 0 → cmp a c ≤ 0

/-- every element is `≤` every later one -/
def Sorted {α : Type} (cmp : α → α → Int) (l : List α) : Prop := l.Pairwise (fun a b => cmp a b ≤ 0)

/-- `out` is a rearrangement of `inp` that keeps elements comparing equal in their original order -/
structure Stable {α : Type} (cmp : α → α → Int) (inp out : List α) : Prop where
  perm : out.Perm inp
  order : ∀ e, out.filter (fun x => cmp x e = 0) = inp.filter (fun x => cmp x e = 0)

/-- `out` is `inp` sorted stably -/
structure StableSort {α : Type} (cmp : α → α → Int) (inp out : List α) : Prop where
  sorted : Sorted cmp out
  stable : Stable cmp inp out

/-- An array in which a key can be searched: `key x` is the comparison of the key with `x`; the elements smaller than the key
(positive comparison) come first, then the elements equal to it, then the larger ones. -/
def Searchable {α : Type} (key : α → Int) (a : List α) : Prop :=
  a.Pairwise (fun x y => (0 < key y → 0 < key x) ∧ (key x < 0 → key y < 0))

end Verif.Sort.Spec
