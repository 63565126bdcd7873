/-! # Finite maps, independently of any hash table -/
namespace Verif.HashMap.Spec

/-- operations of a history -/
inductive Op (K V : Type) where
  | put (k : K) (v : V)
  | remove (k : K)
  | clear

/-- A finite map is the list of its bindings. `put` replaces, `remove` of an absent key does nothing. -/
def step {K V : Type} [DecidableEq K] (m : List (K × V)) : Op K V → List (K × V)
  | .put k v => (k, v) :: m.filter (fun p => p.1 ≠ k)
  | .remove k => m.filter (fun p => p.1 ≠ k)
  | .clear => []

/-- the map after a history -/
def after {K V : Type} [DecidableEq K] (ops : List (Op K V)) : List (K × V) := ops.foldl step []

def lookup {K V : Type} [DecidableEq K] (m : List (K × V)) (k : K) : Option V := (m.find? (fun p => p.1 = k)).map (·.2)

end Verif.HashMap.Spec
