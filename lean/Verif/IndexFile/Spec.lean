import Verif.IndexFile.Model
/-! # Specification of the index file (git's `index-format` documentation)

Only data types of the model are used here. -/
namespace Verif.IndexFile.Spec

/-- the entry as a version 2 or 3 file keeps it: the "extended" flag bit says whether one of the two extended flags that are kept
(intent-to-add, skip-worktree) is set, and only these two survive -/
def kept (e : Entry) : Entry :=
  { e with flagsExt := e.flagsExt &&& 0x6000, flags := if e.flagsExt &&& 0x6000 = 0 then e.flags &&& 0xbfff else e.flags ||| 0x4000 }

/-- an entry a program may hand to the index: a 20 byte id, a path without NUL bytes, the name length recorded in the flags -/
structure Entry.Ok (e : Entry) : Prop where
  id : e.id.length = 20
  nul : (0 : UInt8) ∉ e.path
  name : (e.flags &&& 0xfff).toNat = min e.path.length 0xfff
  len : e.path.length + 72 < 2 ^ 64

/-- an extension: four byte signature beginning with a capital letter, size fits 32 bits, contents acceptable -/
structure Ext.Ok (env : Env) (x : Ext) : Prop where
  sig : x.sig.length = 4
  upper : c!"A" ≤ x.sig.headD 0 ∧ x.sig.headD 0 ≤ c!"Z"
  size : x.data.length < 2 ^ 32
  content : (x.sig = b!"TREE" ∨ x.sig = b!"REUC" ∨ x.sig = b!"NAME") → env.extOk x.sig x.data = true

/-- big-endian value of some bytes -/
def bigEndian (bs : Bytes) : Nat := bs.foldl (fun a c => a * 256 + c.toNat) 0

end Verif.IndexFile.Spec
