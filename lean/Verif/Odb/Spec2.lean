import Verif.Odb.Spec
import Verif.Odb.Model2
/-! # What a directory of loose objects and a directory of packs hold -/
namespace Verif.Odb.Spec
open PackIdx.Spec (SamePrefix Padded)
open Oid.Spec (hex)

/-- the file where a loose object is -/
def Holds (f : LFile) (id : Bytes) (o : Obj) : Prop := f.dir ++ f.name = hex id ∧ f.dir.length = 2 ∧ f.content = .ok o

/-- A directory of loose objects: every file whose name has as many digits as an object's is an object, under its id; no two files have the same name. Other files may be there. -/
structure LooseGood (osz : Nat) (b : LooseB) : Prop where
  size : b.osz = osz
  files : ∀ f ∈ b.files, f.dir.length = 2 ∧ (f.name.length = 2 * osz - 2 → f.isDir = false ∧ ∃ id o, id.length = osz ∧ Holds f id o)
  once : b.files.Pairwise fun f g => ¬ (f.dir = g.dir ∧ f.name = g.name)

/-- its objects -/
def looseObjs (b : LooseB) : Objs := fun id => if id.length = b.osz then match b.files.find? fun f => f.dir ++ f.name = hex id with
  | some f => match f.content with
    | .ok o => some o
    | _ => none
  | none => none else none

/-- the object of a pack under an id -/
def pkObj (osz : Nat) (p : Pk) (id : Bytes) : Option Obj :=
  if id.length = osz then
    match p.find id (2 * osz) with
    | .ok r => match p.get r.1 with
      | .ok o => some o
      | _ => none
    | _ => none
  else none

/-- A pack is as it should be: there are entries (ids and offsets), searching gives what searching them should (C45), and there is an object at each offset. -/
def PackRight (osz : Nat) (p : Pk) : Prop :=
  ∃ ents : List (Bytes × Nat), (∀ key len, key.length = osz → Padded len key → PackIdx.Spec.Looked ents key len (p.find key len)) ∧
    (∀ e ∈ ents, e.1.length = osz ∧ ∃ o, p.get e.2 = .ok o)

/-- A multi-pack-index is as it should be, where `U` says what the pack of a name is: it has entries, one for each id that is in one of its packs, and they are right. -/
def MidxRight (osz : Nat) (U : Bytes → Pk) (m : MidxF) : Prop :=
  ∃ ents : List (Bytes × (Nat × Nat)), (∀ key len, key.length = osz → Padded len key → PackIdx.Spec.Looked ents key len (m.find key len)) ∧
    (∀ e ∈ ents, e.1.length = osz ∧ ∃ n stem o, m.names[e.2.1]? = some n ∧ stemOf n = some stem ∧ (U stem).get e.2.2 = .ok o ∧ pkObj osz (U stem) e.1 = some o) ∧
    (∀ n ∈ m.names, ∃ stem, stemOf n = some stem ∧ ∀ id o, pkObj osz (U stem) id = some o → ∃ e ∈ ents, e.1 = id)

/-- the packs that are open -/
def openPacks (b : PackB) : List Pk := b.midxPacks ++ b.packs

/-- the packs in the directory -/
def diskPacks (b : PackB) : List Pk := b.disk.listing.filterMap fun n => match stemOf n with
  | some _ => match b.disk.openPack n with
    | .ok p => some p
    | _ => none
  | none => none

/-- A directory of packs and what is open of it. `U`: the pack that has a name, without its suffix (names are made from the content). -/
structure PackGood (osz : Nat) (U : Bytes → Pk) (b : PackB) : Prop where
  size : b.osz = osz
  right : ∀ p ∈ openPacks b ++ diskPacks b, PackRight osz p
  /-- no two packs have different objects under an id -/
  agree : ∀ p ∈ openPacks b ++ diskPacks b, ∀ q ∈ openPacks b ++ diskPacks b, ∀ id x y, pkObj osz p id = some x → pkObj osz q id = some y → x = y
  /-- packs are what their names say; no name begins with another -/
  known : ∀ p ∈ openPacks b, ∃ stem, p = U stem
  opens : ∀ n p, b.disk.openPack n = .ok p → ∃ stem, stemOf n = some stem ∧ p = U stem
  named : ∀ stem, (U stem).name = stem ++ b!".pack"
  apart : ∀ n stem, stemOf n = some stem → (n ∈ b.disk.listing ∨ ∃ m, b.disk.midx = some m ∧ n ∈ m.names) → ∀ p ∈ openPacks b ++ diskPacks b, stem <+: p.name → p = U stem
  /-- the multi-pack-index that is open -/
  midx : ∀ m, b.midx = some m → MidxRight osz U m ∧ b.midxPacks.map some = m.names.map fun n => (stemOf n).map U
  nomidx : b.midx = none → b.midxPacks = []
  last : ∀ p, b.last = some p → p ∈ openPacks b
  /-- the directory: packs can be opened, or have no index; a multi-pack-index that can be opened is right, and those of its packs that can be opened are in the directory -/
  dir : b.folder = true → b.disk.isDir = true
  listing : ∀ n ∈ b.disk.listing, (∃ p, b.disk.openPack n = .ok p) ∨ b.disk.openPack n = .err (-3) ∨ stemOf n = none
  diskMidx : ∀ m, b.disk.midx = some m → MidxRight osz U m ∧ ∀ n ∈ m.names, ∀ p, b.disk.openPack n = .ok p → n ∈ b.disk.listing

/-- the first object that one of some packs has under an id -/
def firstObj (osz : Nat) (ps : List Pk) : Objs := fun id => ps.findSome? fun p => pkObj osz p id

/-- the backends in order -/
def BackGood (osz : Nat) (U : Bytes → Pk) : Back → Prop
  | .loose b => LooseGood osz b
  | .pack b => PackGood osz U b

/-- loose objects can be written -/
def Writable : Back → Prop
  | .loose b => b.ro = false
  | .pack _ => True

/-- what a backend sees -/
def backSees (osz : Nat) : Back → Objs
  | .loose b => looseObjs b
  | .pack b => firstObj osz (openPacks b)

/-- what it sees after it has been refreshed -/
def backAfter (osz : Nat) : Back → Objs
  | .loose b => looseObjs b
  | .pack b => if b.folder then firstObj osz (openPacks b ++ diskPacks b) else firstObj osz (openPacks b)

end Verif.Odb.Spec
