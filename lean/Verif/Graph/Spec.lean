import Verif.Graph.Model
/-! # Ancestry -/
namespace Verif.Graph

/-- `x` is `c`, or a parent of it, or a parent of a parent, and so on -/
inductive Reaches (g : Repo) : Nat → Nat → Prop
  | refl (c : Nat) : Reaches g c c
  | step {c p x : Nat} {ps : List Nat} : g.parents c = some ps → p ∈ ps → Reaches g p x → Reaches g c x

/-- `x` is a proper ancestor of `c` -/
def Proper (g : Repo) (c x : Nat) : Prop := ∃ ps p, g.parents c = some ps ∧ p ∈ ps ∧ Reaches g p x

/-- No commit is its own ancestor (commits are named by the hash of their content, which has the ids of the parents). -/
def Acyclic (g : Repo) : Prop := ∀ c, ¬Proper g c c

/-- parents are commits of the repository (that may be missing) -/
def Closed (g : Repo) : Prop := ∀ c ps, g.parents c = some ps → ∀ p ∈ ps, p < g.n

/-- an ancestor of `one` and of at least one of `twos` -/
def Common (g : Repo) (one : Nat) (twos : List Nat) (x : Nat) : Prop := Reaches g one x ∧ ∃ t ∈ twos, Reaches g t x

end Verif.Graph
