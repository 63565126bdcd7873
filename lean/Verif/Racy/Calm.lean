import Verif.Racy.Model
/-! # What the theorems of C77 assume of a history -/
namespace Verif.Racy
open Spec

/-- the id git gives the contents of a file: that of the blob the filters make of it -/
def gitId (E : Env) (c : Bytes) : Bytes :=
  match E.filter with
  | none => E.blobId c.length c
  | some f => E.blobId (f c).length (f c)

/-- the index entries there are: of the programs and of the index file -/
def Exists (s : St) (e : Entry) : Prop := (∃ p, (s.mem p).entry = some e) ∨ ∃ t, s.disk = some (some e, t)

/-- there is no index yet, and nobody has done anything -/
def start (t : Time) : St := { clock := t }

/-- the file is not written in the tick of an entry's time while that entry has not been checked against an index written since, and not emptied in that tick -/
def Quiet (E : Env) (s : St) (c : Bytes) : Prop :=
  c.length < 2 ^ 32 ∧
  (∀ p e, (s.mem p).entry = some e → timeEq E e.mtime (indexTime E s.clock) = true → e.uptodate = false ∧ (s.mem p).doing ≠ .writing) ∧
  (c = [] → ∀ e, Exists s e → timeEq E e.mtime (indexTime E s.clock) = true → e.id = gitId E [])

/-- a history in which every change of the file is `Quiet` -/
def Calm (E : Env) : List Event → St → Prop
  | [], _ => True
  | ev :: es, s => (∀ c x o, ev = .edit c x o → Quiet E s c) ∧ ∀ s', step E s ev = some s' → Calm E es s'

end Verif.Racy
