import Verif.Revwalk.Model
import Verif.Graph.Spec
/-! # What a walk should give -/
namespace Verif.Revwalk.Spec
open Graph (Repo Reaches)

/-- `git_revwalk_push` was called with `c` -/
def Pushed (calls : List (Nat × Bool)) (c : Nat) : Prop := (c, false) ∈ calls

/-- `git_revwalk_hide` was called with `c` -/
def Hidden (calls : List (Nat × Bool)) (c : Nat) : Prop := (c, true) ∈ calls

/-- the commits reachable from a pushed one and from no hidden one -/
def Wanted (g : Repo) (calls : List (Nat × Bool)) (x : Nat) : Prop := (∃ p, Pushed calls p ∧ Reaches g p x) ∧ ∀ h, Hidden calls h → ¬Reaches g h x

/-- some commit that is reachable from those given cannot be read -/
def Unreadable (g : Repo) (calls : List (Nat × Bool)) : Prop := ∃ c ∈ calls, ∃ x, Reaches g c.1 x ∧ g.parents x = none

/-- No commit is named as a parent 65535 times or more. -/
def FewChildren (g : Repo) : Prop := ∀ y, ((List.range g.n).map fun x => ((g.parents x).getD []).count y).sum < 65535

/-- A history: parents are commits of the repository, no commit is its own ancestor, and none is named as a parent 65535 times or more. -/
structure History (g : Repo) : Prop where
  closed : Graph.Closed g
  acyclic : Graph.Acyclic g
  few : FewChildren g

/-- No parent is newer than its child. -/
def NotNewer (g : Repo) : Prop := ∀ c ps p, g.parents c = some ps → p ∈ ps → g.time p ≤ g.time c

/-- Every parent is older than its child. -/
def Older (g : Repo) : Prop := ∀ c ps p, g.parents c = some ps → p ∈ ps → g.time p < g.time c

/-- What the dates and the order of the calls have to be for all hidden commits to be left out: there is one commit that is pushed and every parent is older
than its child, or no parent is newer than its child and the calls are made in the order of the dates, from old to new. -/
def Datable (g : Repo) (calls : List (Nat × Bool)) : Prop :=
  (Older g ∧ ∀ c d, Pushed calls c → Pushed calls d → c = d) ∨
  (NotNewer g ∧ calls.Pairwise fun a b => g.time a.1 ≤ g.time b.1)

end Verif.Revwalk.Spec
