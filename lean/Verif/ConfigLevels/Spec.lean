import Verif.ConfigLevels.Model
/-! # Specification for configurations of several levels -/
namespace Verif.ConfigLevels
open ConfigFile (Entry values)

/-- The configurations an application can have: made empty, and by adding backends (replacing the one at the level or not), setting the write
order and opening a level. -/
inductive Reach : Config → Prop
  | new : Reach new
  | add {c c' : Config} {inst : Nat} {level : Int} {force : Bool} : Reach c → addInstance c inst level force = .ok c' → Reach c'
  | order {c c' : Config} {levels : List Int} : Reach c → setWriteorder c levels = .ok c' → Reach c'
  | level {c c' : Config} {level : Int} : Reach c → openLevel c level = .ok c' → Reach c'

/-- The same without setting the write order. -/
inductive Plain : Config → Prop
  | new : Plain new
  | add {c c' : Config} {inst : Nat} {level : Int} {force : Bool} : Plain c → addInstance c inst level force = .ok c' → Plain c'
  | level {c c' : Config} {level : Int} : Plain c → openLevel c level = .ok c' → Plain c'

/-- the backend can be read and the last value it gives the variable is `v` (none if it is there without value) -/
def Defines (st : Store) (e : BEntry) (key : Bytes) (v : Option Bytes) : Prop :=
  ∃ l, readAll (st e.inst) = .ok l ∧ (values key l).getLast? = some v

/-- the backend can be read and does not have the variable -/
def Lacks (st : Store) (e : BEntry) (key : Bytes) : Prop := ∃ l, readAll (st e.inst) = .ok l ∧ values key l = []

/-- all backends can be read -/
def Readable (st : Store) (c : Config) : Prop := ∀ e ∈ c.readers.items, ∃ l, readAll (st e.inst) = .ok l

end Verif.ConfigLevels
