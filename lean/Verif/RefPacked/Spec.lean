import Verif.Oid.Spec
/-! # The packed-refs format

A file is a sequence of comment lines starting with `#`, then one record per reference: the hexadecimal id, a space, the name,
a newline, and optionally a second line with `^` and the peeled id. -/
namespace Verif.RefPacked.Spec
open Verif.Oid.Spec

structure Rec where
  name : Bytes
  oid : Bytes
  peel : Option Bytes
  deriving DecidableEq, Repr

def Rec.text (r : Rec) : Bytes :=
  hex r.oid ++ b!" " ++ r.name ++ b!"\n" ++
    match r.peel with
    | some p => b!"^" ++ hex p ++ b!"\n"
    | none => []

/-- a well-formed record for ids of `size` bytes -/
structure Rec.Valid (size : Nat) (r : Rec) : Prop where
  name_ne : r.name ≠ []
  name_nl : (10 : UInt8) ∉ r.name
  oid_len : r.oid.length = size
  peel_len : ∀ p, r.peel = some p → p.length = size

/-- comment lines -/
def header (lines : List Bytes) : Bytes := lines.flatMap (fun l => b!"#" ++ l ++ b!"\n")

def file (lines : List Bytes) (recs : List Rec) : Bytes := header lines ++ recs.flatMap Rec.text

end Verif.RefPacked.Spec
