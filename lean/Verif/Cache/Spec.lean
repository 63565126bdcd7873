import Verif.Cache.Model
/-! # What the users of the cache may do, and what they hold -/
namespace Verif.Cache

/-- The cache returns the object `h` for the id. -/
def Cached (hash : Bytes → Nat) (w : World) (id : Bytes) (h : Nat) : Prop := HashMap.get hash w.map id = .ok h

/-- The callers' view: how many references to each object they have been given and not yet released, and which objects have been
offered to the cache at all (before that an object belongs to the caller that allocated it). -/
structure Users where
  holds : Nat → Nat
  offered : Nat → Bool

/-- The rules: an object may be offered when it is new or the caller holds a reference to it; a reference may be released by whoever
holds it. Everything else is always allowed. -/
def Allowed (u : Users) : Op → Prop
  | .store h _ => u.offered h = false ∨ 0 < u.holds h
  | .release h => 0 < u.holds h
  | _ => True

/-- a reference is handed out -/
def Users.give (u : Users) : Option Nat → Users
  | none => u
  | some x => { u with holds := fun h => if h = x then u.holds h + 1 else u.holds h }

/-- the callers' view after a call that returned `r` -/
def Users.after (u : Users) (op : Op) (r : Option Nat) : Users :=
  match op with
  | .store h _ => { u with offered := fun h' => if h' = h then true else u.offered h' }.give r
  | .release h => { u with holds := fun h' => if h' = h then u.holds h' - 1 else u.holds h' }
  | _ => u.give r

/-- A new cache, with objects nobody has offered yet: `o` gives their ids, types and sizes. -/
structure Fresh (o : Nat → Obj) (w : World) : Prop where
  objs : w.objs = o
  map : w.map = HashMap.init
  used : w.used = 0
  counts : ∀ h, (o h).refcount = 0 ∧ (o h).freed = false

/-- Objects have one of the eight types, and the id determines the size (it is the hash of the contents). -/
structure Sane (o : Nat → Obj) : Prop where
  type : ∀ h, (o h).type < 8
  size : ∀ h h', (o h).oid = (o h').oid → (o h).size = (o h').size

/-- the worlds that `n` calls which keep to the rules lead to, with the callers' view -/
inductive Reach (hash : Bytes → Nat) (kind : Nat → Nat) (o : Nat → Obj) : Nat → World → Users → Prop
  | start {w : World} : Fresh o w → Reach hash kind o 0 w ⟨fun _ => 0, fun _ => false⟩
  | next {n : Nat} {w w' : World} {u : Users} {op : Op} {r : Option Nat} : Reach hash kind o n w u → Allowed u op → step hash kind w op = .ok (r, w') →
      Reach hash kind o (n + 1) w' (u.after op r)

end Verif.Cache
