import Verif.CommitGraph.Model
import Verif.PackIdx.Spec
/-! # What a commit-graph is for -/
namespace Verif.CommitGraph.Spec

/-- The entry `e` of the graph `f` describes the commit `c`: its id and tree, its time (34 bits), the number of its parents, and asking for the
`n`-th parent gives an entry with the id of that parent, or "not found" if there is none. -/
def Describes (osz : Nat) (f : File) (e : Entry) (c : Commit) : Prop :=
  e.id = c.id ∧ e.tree = c.tree ∧ (e.time : Int) = c.time % 2 ^ 34 ∧ e.count = c.parents.length ∧
  ∀ n, (∀ h : n < c.parents.length, ∃ e', entryParent osz f e n = .ok e' ∧ e'.id = c.parents[n]) ∧
    (c.parents.length ≤ n → entryParent osz f e n = .err (-3))

/-- `depth` is the depth of each of these commits: one more than that of its deepest parent, so a root has depth 1 -/
def IsDepth (commits : List Commit) (depth : Bytes → Nat) : Prop :=
  ∀ c ∈ commits, depth c.id = 1 + (c.parents.map depth).foldr max 0

/-- the parents of each commit are there, and a commit's id says which one it is -/
structure Closed (osz : Nat) (commits : List Commit) : Prop where
  parents : ∀ c ∈ commits, ∀ p ∈ c.parents, ∃ d ∈ commits, d.id = p
  ids : ∀ c ∈ commits, ∀ d ∈ commits, c.id = d.id → c = d
  size : ∀ c ∈ commits, c.id.length = osz ∧ c.tree.length = osz
  notNull : ∀ c ∈ commits, c.id ≠ List.replicate osz 0

/-- the entries that a caller can get from the graph: by position, by id, and as the parent of an entry -/
inductive Reached (osz : Nat) (f : File) : Entry → Prop where
  | byIndex (pos : Nat) (e : Entry) : getByIndex osz f pos = .ok e → Reached osz f e
  | byId (short : Bytes) (len : Nat) (e : Entry) : short.length = osz → entryFind osz f short len = .ok e → Reached osz f e
  | parent (e : Entry) (n : Nat) (e' : Entry) : Reached osz f e → entryParent osz f e n = .ok e' → Reached osz f e'

/-- the ids in the table of ids -/
def idTable (osz : Nat) (f : File) : List Bytes := (List.range f.num).map fun i => (f.file.drop (f.lookup + i * osz)).take osz

end Verif.CommitGraph.Spec
