import Verif.Base
/-! # Specification: similarity of two texts

A text is cut at line ends (line feed or NUL) into lines, and lines into pieces of 80 bytes; the pieces that are not empty are hashed, and two texts
are as similar as the hashes they have in common. -/
namespace Verif.Hashsig.Spec

/-- the end of a line -/
def Break (c : UInt8) : Prop := c = c!"\n" ∨ c = 0

instance (c : UInt8) : Decidable (Break c) := inferInstanceAs (Decidable (_ ∨ _))

/-- blanks, which can be ignored -/
def Blank (c : UInt8) : Prop := c = c!" " ∨ c = c!"\t" ∨ c = 0x0c ∨ c = c!"\r" ∨ c = 0x0b

instance (c : UInt8) : Decidable (Blank c) := inferInstanceAs (Decidable (_ ∨ _))

/-- the text as it is looked at -/
def seen (ignoreBlanks : Bool) (text : Bytes) : Bytes := if ignoreBlanks then text.filter (fun c => ¬ Blank c) else text

/-- the pieces of a text: no line ends in them, at most 80 bytes, and shorter only before a line end or the end of the text -/
inductive Pieces : Bytes → List Bytes → Prop
  | nil : Pieces [] []
  | brk {c : UInt8} {rest : Bytes} {ps : List Bytes} : Break c → Pieces rest ps → Pieces (c :: rest) ps
  | piece {p rest : Bytes} {ps : List Bytes} : p ≠ [] → (∀ c ∈ p, ¬ Break c) →
      (p.length = 80 ∨ (p.length < 80 ∧ ∀ c, rest.head? = some c → Break c)) → Pieces rest ps → Pieces (p ++ rest) (p :: ps)

/-- the hash of a piece: 31 times the hash so far plus the byte, in 64 bits, of which the low 32 are used -/
def pieceHash (p : Bytes) : UInt32 := (p.foldl (fun s c => s * 31 + UInt64.ofNat c.toNat) 0x012345678ABCDEF0).toUInt32

/-- how many members two lists have in common, each as often as it is in both -/
def common : List UInt32 → List UInt32 → Nat
  | [], _ => 0
  | x :: xs, ys => if x ∈ ys then common xs (ys.erase x) + 1 else common xs ys

/-- twice the common part over the whole, in percent -/
def dice (a b : List UInt32) : Nat := 100 * (2 * common a b) / (a.length + b.length)

end Verif.Hashsig.Spec
