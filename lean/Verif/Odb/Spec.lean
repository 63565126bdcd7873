import Verif.Odb.Model
import Verif.PackIdx.Spec
/-! # What an object database is, independently of the code: a map from ids to objects, that only grows -/
namespace Verif.Odb.Spec
open PackIdx.Spec (SamePrefix Padded)

/-- the objects of a backend -/
abbrev Objs := Bytes → Option Obj

/-- The answer to an abbreviated id, when there are the ids that `has` says: the only id that begins with it, `GIT_EAMBIGUOUS` (-5) if there are several, `GIT_ENOTFOUND` (-3) if there
is none. -/
inductive Looked (has : Bytes → Prop) (short : Bytes) (len : Nat) : Res Bytes → Prop where
  | one {i : Bytes} : has i → SamePrefix len short i → (∀ j, has j → SamePrefix len short j → j = i) → Looked has short len (.ok i)
  | none : (∀ j, has j → ¬ SamePrefix len short j) → Looked has short len (.err (-3))
  | more {i j : Bytes} : has i → has j → i ≠ j → SamePrefix len short i → SamePrefix len short j → Looked has short len (.err (-5))

/-- a backend may also pass on (`GIT_PASSTHROUGH`, -30) what it does not have -/
def Answer (has : Bytes → Prop) (short : Bytes) (len : Nat) (r : Res Bytes) : Prop :=
  Looked has short len r ∨ (r = .err (-30) ∧ Looked has short len (.err (-3)))

/-- the id of an answer with an id and something else -/
def idOnly {α : Type} : Res (Bytes × α) → Res Bytes
  | .ok x => .ok x.1
  | .err e => .err e
  | .ub => .ub

/-- the ids -/
def Has (objs : Objs) (id : Bytes) : Prop := (objs id).isSome = true

/-- more objects -/
def With (objs : Objs) (id : Bytes) (o : Obj) : Objs := fun x => if x = id then some o else objs x

variable {σ : Type}

/-- Backends that do what they should. In each state a backend `sees` some objects, and there are objects that it sees `after` it has been refreshed (all that are on disk, say: others may have
added some). Looking things up gives what it sees; it may change the state (a cache), but not what it sees. Refreshing succeeds. Writing may fail, and then changes nothing. `Valid`: the
ids and objects that may be written. -/
structure Honest (ops : Ops σ) (osz : Nat) (Good : σ → Prop) (sees after : σ → Objs) (Valid : Bytes → Obj → Prop) : Prop where
  grows : ∀ s, Good s → ∀ id o, sees s id = some o → after s id = some o
  fixed : ∀ s, Good s → ops.canRefresh s = false → after s = sees s
  read : ∀ s, Good s → ∀ id, id.length = osz → Good (ops.read s id).1 ∧ sees (ops.read s id).1 = sees s ∧ after (ops.read s id).1 = after s ∧
    ops.canRefresh (ops.read s id).1 = ops.canRefresh s ∧
    (∀ o, sees s id = some o → (ops.read s id).2 = .ok o) ∧ (sees s id = none → (ops.read s id).2 = .err (-3) ∨ (ops.read s id).2 = .err (-30))
  header : ∀ s, Good s → ∀ id, id.length = osz → Good (ops.readHeader s id).1 ∧ sees (ops.readHeader s id).1 = sees s ∧ after (ops.readHeader s id).1 = after s ∧
    ops.canRefresh (ops.readHeader s id).1 = ops.canRefresh s ∧
    ((ops.readHeader s id).2 = .err (-30) ∨ (∀ o, sees s id = some o → (ops.readHeader s id).2 = .ok (o.data.length, o.type)) ∧ (sees s id = none → (ops.readHeader s id).2 = .err (-3)))
  has : ∀ s, Good s → ∀ id, id.length = osz → Good (ops.has s id).1 ∧ sees (ops.has s id).1 = sees s ∧ after (ops.has s id).1 = after s ∧
    ops.canRefresh (ops.has s id).1 = ops.canRefresh s ∧ (ops.has s id).2 = (sees s id).isSome
  readPrefix : ∀ s, Good s → ∀ key len, key.length = osz → 4 ≤ len → len ≤ 2 * osz → Padded len key → Good (ops.readPrefix s key len).1 ∧
    sees (ops.readPrefix s key len).1 = sees s ∧ after (ops.readPrefix s key len).1 = after s ∧ ops.canRefresh (ops.readPrefix s key len).1 = ops.canRefresh s ∧
    Answer (Has (sees s)) key len (idOnly (ops.readPrefix s key len).2) ∧ (∀ i o, (ops.readPrefix s key len).2 = .ok (i, o) → sees s i = some o)
  hasPrefix : ∀ s, Good s → ∀ key len, key.length = osz → 4 ≤ len → len < 2 * osz → Padded len key → Good (ops.hasPrefix s key len).1 ∧
    sees (ops.hasPrefix s key len).1 = sees s ∧ after (ops.hasPrefix s key len).1 = after s ∧ ops.canRefresh (ops.hasPrefix s key len).1 = ops.canRefresh s ∧
    Answer (Has (sees s)) key len (ops.hasPrefix s key len).2
  refresh : ∀ s, Good s → ops.canRefresh s = true → Good (ops.refresh s).1 ∧ (ops.refresh s).2 = .ok () ∧ sees (ops.refresh s).1 = after s ∧ after (ops.refresh s).1 = after s ∧
    ops.canRefresh (ops.refresh s).1 = true
  freshen : ∀ s, Good s → ∀ f, ops.freshen s = some f → ∀ id, id.length = osz → Good (f id).1 ∧ sees (f id).1 = sees s ∧ after (f id).1 = after s ∧
    ops.canRefresh (f id).1 = ops.canRefresh s ∧ ((f id).2 = .ok () → (sees s id).isSome = true)
  write : ∀ s, Good s → ∀ f, ops.write s = some f → ∀ id o, Valid id o → Good (f id o).1 ∧ ops.canRefresh (f id o).1 = ops.canRefresh s ∧
    (((f id o).2 = .ok () ∧ sees (f id o).1 = With (sees s) id o ∧ after (f id o).1 = With (after s) id o) ∨
      (∃ e, (f id o).2 = .err e ∧ e < 0 ∧ e ≠ -30 ∧ sees (f id o).1 = sees s ∧ after (f id o).1 = after s))
  finish : ∀ s, Good s → ops.stream s ≠ none → ∀ id o, Valid id o → Good (ops.finish s id o).1 ∧ ops.canRefresh (ops.finish s id o).1 = ops.canRefresh s ∧
    (((ops.finish s id o).2 = .ok () ∧ sees (ops.finish s id o).1 = With (sees s) id o ∧ after (ops.finish s id o).1 = With (after s) id o) ∨
      (∃ e, (ops.finish s id o).2 = .err e ∧ e < 0 ∧ sees (ops.finish s id o).1 = sees s ∧ after (ops.finish s id o).1 = after s))
  stream : ∀ s, Good s → ∀ r, ops.stream s = some r → r = .ok () ∨ ∃ e, r = .err e ∧ e < 0 ∧ e ≠ -30

/-- The objects that there can be: no two of them have the same id, which has `osz` bytes and is not zero; the empty tree is one of them. -/
structure World (cfg : Cfg) (P : Obj → Prop) : Prop where
  inj : ∀ a b, P a → P b → cfg.idOf a = cfg.idOf b → a = b
  len : ∀ a, P a → (cfg.idOf a).length = cfg.osz
  nonzero : ∀ a, P a → ∃ c ∈ cfg.idOf a, c ≠ 0
  empty : P ⟨2, []⟩ ∧ cfg.idOf ⟨2, []⟩ = cfg.emptyTree

/-- the object can be had from the database: one of the backends has it (perhaps only once refreshed), or it is the empty tree, which is always there -/
def Avail (cfg : Cfg) (after : σ → Objs) (db : Db σ) (id : Bytes) (o : Obj) : Prop :=
  (∃ s ∈ db.slots, after s.st id = some o) ∨ (id = cfg.emptyTree ∧ o = ⟨2, []⟩)

/-- The database: every backend is in order, all objects that it has are under their ids, and the cache has none but objects that can be had. -/
structure Sound (cfg : Cfg) (P : Obj → Prop) (Good : σ → Prop) (after : σ → Objs) (db : Db σ) : Prop where
  good : ∀ s ∈ db.slots, Good s.st
  objs : ∀ s ∈ db.slots, ∀ id o, after s.st id = some o → P o ∧ cfg.idOf o = id
  cache : ∀ x ∈ db.cache, Avail cfg after db x.1 x.2

/-- the ids that some backend has, in the sense of `f` (`sees`, or `after`) -/
def Stored (f : σ → Objs) (db : Db σ) (id : Bytes) : Prop := ∃ s ∈ db.slots, Has (f s.st) id

/-- What an abbreviation is looked up among: the ids that the backends see as they are, if one of those begins with it; otherwise all that they have once refreshed. -/
def Among (sees after : σ → Objs) (db : Db σ) (short : Bytes) (len : Nat) (r : Res Bytes) : Prop :=
  ((∃ i, Stored sees db i ∧ SamePrefix len short i) → Looked (Stored sees db) short len r) ∧
  ((∀ i, Stored sees db i → ¬ SamePrefix len short i) → Looked (Stored after db) short len r)

end Verif.Odb.Spec
