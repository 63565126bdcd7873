import Verif.Index.Spec
import Verif.Index.Model
/-! # Specification of a three-way merge, path by path

Independent of the model of the merge: only the type of tree entries (path, mode, id) is used. -/
namespace Verif.Merge.Spec
open Verif.Index Verif.Index.Spec

/-- what a tree holds at a path: a mode and an object -/
abbrev Item := Nat × Bytes

/-- the kind of a mode: symbolic link, submodule -/
def Link (m : Nat) : Prop := m &&& 0o170000 = 0o120000
def Submodule (m : Nat) : Prop := m &&& 0o170000 = 0o160000
instance (m : Nat) : Decidable (Link m) := inferInstanceAs (Decidable (_ = _))
instance (m : Nat) : Decidable (Submodule m) := inferInstanceAs (Decidable (_ = _))

/-- a tree, as the flat list of its files: sorted by path, no directories, and no path both a file and a directory -/
structure IsTree (l : List Entry) : Prop where
  sorted : l.Pairwise (fun a b => a.path < b.path)
  entry : ∀ e ∈ l, e.stage = 0 ∧ e.path ≠ [] ∧ e.mode ≠ 0 ∧ ¬ (e.mode &&& 0o170000 = 0o040000)
  files : ∀ e ∈ l, ∀ e' ∈ l, ¬ Below e.path e'.path

/-- the entry of a tree at a path -/
def entryAt (l : List Entry) (p : Bytes) : Option Entry := l.find? (fun e => decide (e.path = p))

/-- the item of a tree at a path -/
def itemAt (l : List Entry) (p : Bytes) : Option Item := (entryAt l p).map (fun e => (e.mode, e.id))

/-- the item was added or, without a change between file and symbolic link, modified -/
def AddedOrModified : Option Item → Option Item → Prop
  | _, none => False
  | none, some _ => True
  | some a, some x => a ≠ x ∧ (Link a.1 ↔ Link x.1)

/-- what is to be done at a path -/
inductive Rule where
  /-- take this (`none`: the path is absent) -/
  | take (x : Option Item)
  /-- both sides changed it differently: merge the contents -/
  | contents
  /-- both sides changed it differently, and the contents cannot be merged -/
  | conflict
  deriving DecidableEq

/-- both sides have a file there, or both have a symbolic link, and the ancestor the same kind; where the ancestor has nothing it must be
files. Submodules are not merged. -/
def Mergeable (a : Option Item) (o t : Option Item) : Prop :=
  match o, t with
  | some o, some t => ¬ Submodule o.1 ∧ ¬ Submodule t.1 ∧ (∀ x, a = some x → ¬ Submodule x.1 ∧ (Link x.1 ↔ Link o.1) ∧ (Link x.1 ↔ Link t.1)) ∧
      (a = none → ¬ Link o.1 ∧ ¬ Link t.1)
  | _, _ => False

open Classical in
/-- the three-way rule: equal results are taken, a change made by one side only is taken, otherwise the contents are merged -/
noncomputable def rule (a o t : Option Item) : Rule :=
  if o = t then .take o
  else if o = a then .take t
  else if t = a then .take o
  else if Mergeable a o t then .contents
  else .conflict

section
variable (a o t : List Entry)

/-- the path is not the same in the three trees -/
def Changed (p : Bytes) : Prop := ¬ (itemAt a p = itemAt o p ∧ itemAt a p = itemAt t p)

/-- one of the sides added or modified the path -/
def Touched (p : Bytes) : Prop := AddedOrModified (itemAt a p) (itemAt o p) ∨ AddedOrModified (itemAt a p) (itemAt t p)

/-- the path is a file on one side and a directory on another, as far as the merge looks: the next path (in the order of the trees)
that is not the same in the three trees lies below it, and both were added or modified by a side -/
def DirFile (p : Bytes) : Prop :=
  Changed a o t p ∧ Touched a o t p ∧
  ∃ q, Changed a o t q ∧ p < q ∧ (∀ r, p < r → r < q → ¬ Changed a o t r) ∧ Touched a o t q ∧ Below p q

/-- the answer of the merge driver at a path -/
def DriverSays (drv : Option Entry → Entry → Entry → Res Entry) (p : Bytes) (r : Res Entry) : Prop :=
  ∃ eo et, entryAt o p = some eo ∧ entryAt t p = some et ∧ drv (entryAt a p) eo et = r

/-- the path is left in conflict: a file against a directory, or two changes that cannot be merged -/
def Conflicted (drv : Option Entry → Entry → Entry → Res Entry) (p : Bytes) : Prop :=
  DirFile a o t p ∨ rule (itemAt a p) (itemAt o p) (itemAt t p) = .conflict ∨
  (rule (itemAt a p) (itemAt o p) (itemAt t p) = .contents ∧ DriverSays a o t drv p (.err (-24)))
end

/-- the mode the index stores for a mode: links and submodules as such, everything else as a regular file, executable or not -/
def canonMode (m : Nat) : Nat :=
  if Link m then 0o120000
  else if Submodule m then 0o160000
  else if m &&& 0o100 ≠ 0 then 0o100755 else 0o100644

end Verif.Merge.Spec
