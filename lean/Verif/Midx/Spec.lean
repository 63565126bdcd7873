import Verif.Midx.Model
import Verif.PackIdx.Spec
/-! # What a multi-pack-index is for -/
namespace Verif.Midx.Spec

/-- the ids in the table of ids -/
def idTable (osz : Nat) (f : File) : List Bytes := (List.range f.num).map fun i => (f.file.drop (f.lookup + i * osz)).take osz

/-- the name of a file in the directory itself, that ends with ".idx" -/
def LocalIdx (name : Bytes) : Prop := (∃ stem, stem ≠ [] ∧ name = stem ++ b!".idx") ∧ ∀ c ∈ name, c ≠ 0 ∧ c ≠ c!"/" ∧ c ≠ 92

/-- packs that a multi-pack-index can be written for: the name of each is a stem without dots, slashes and backslashes, followed by ".pack"; no two have the
same name; there is at least one object -/
structure Good (osz : Nat) (packs : List Pack) : Prop where
  names : ∀ p ∈ packs, ∃ stem, stem ≠ [] ∧ p.name = stem ++ b!".pack" ∧ ∀ c ∈ stem, c ≠ 0 ∧ c ≠ c!"/" ∧ c ≠ 92 ∧ c ≠ c!"."
  distinct : packs.Pairwise fun p q => p.name ≠ q.name
  entries : ∀ p ∈ packs, ∀ e ∈ p.entries, e.1.length = osz ∧ e.2 < 2 ^ 63
  some : ∃ p ∈ packs, p.entries ≠ []
  few : (packs.map fun p => p.entries.length).sum < 2 ^ 29
  short : (packs.map fun p => p.name.length).sum < 2 ^ 32

/-- the index of a pack -/
def idxName (p : Pack) : Bytes := p.name.take (p.name.length - 5) ++ b!".idx"

/-- the entry names a pack that has this object, and where -/
def Points (f : File) (packs : List Pack) (e : Entry) : Prop :=
  ∃ p ∈ packs, (e.id, e.off) ∈ p.entries ∧ f.names[e.pack]? = .some (idxName p)

end Verif.Midx.Spec
