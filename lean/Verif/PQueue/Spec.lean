import Verif.Base
/-! # What a priority queue does, on bags of items -/
namespace Verif.PQueue.Spec

variable {α : Type}

/-- a comparison that is a total preorder (`cmp a b ≤ 0`: a does not come after b) -/
structure Preorder (cmp : α → α → Int) : Prop where
  total : ∀ a b, cmp a b ≤ 0 ∨ cmp b a ≤ 0
  trans : ∀ a b c, cmp a b ≤ 0 → cmp b c ≤ 0 → cmp a c ≤ 0

inductive Op (α : Type) where
  | insert (x : α)
  | pop

/-- A history of calls, from a bag of items to a bag of items; bags are lists up to order.  `outs` are the results of the `pop`s. -/
inductive Behaves (cmp : α → α → Int) : List α → List (Op α) → List (Option α) → List α → Prop
  | nil {bag : List α} {bag' : List α} (h : bag.Perm bag') : Behaves cmp bag [] [] bag'
  | insert {bag : List α} {x : α} {ops : List (Op α)} {outs : List (Option α)} {bag' : List α}
      (h : Behaves cmp (x :: bag) ops outs bag') : Behaves cmp bag (.insert x :: ops) outs bag'
  | popEmpty {ops : List (Op α)} {outs : List (Option α)} {bag' : List α}
      (h : Behaves cmp [] ops outs bag') : Behaves cmp [] (.pop :: ops) (none :: outs) bag'
  | pop {bag rest : List α} {m : α} {ops : List (Op α)} {outs : List (Option α)} {bag' : List α}
      (hperm : bag.Perm (m :: rest)) (hmin : ∀ x ∈ rest, cmp m x ≤ 0)
      (h : Behaves cmp rest ops outs bag') : Behaves cmp bag (.pop :: ops) (some m :: outs) bag'

end Verif.PQueue.Spec
