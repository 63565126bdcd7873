import Verif.Utf8.Spec
/-! # Names that must not be written -/
namespace Verif.PathValid.Spec
open Utf8.Spec

/-- ASCII lower case -/
def low (c : UInt8) : UInt8 := if 65 ≤ c.toNat ∧ c.toNat ≤ 90 then UInt8.ofNat (c.toNat + 32) else c

/-- the components of a path, in order, each with what follows it (`none`: it is the last one) -/
def components : Bytes → List (Bytes × Option Bytes)
  | [] => [([], none)]
  | c :: cs =>
    if c = c!"/" then ([], some cs) :: components cs
    else match components cs with
      | (comp, rest) :: more => (c :: comp, rest) :: more
      | [] => []

/-- the same up to the case of ASCII letters -/
def SameName (a b : Bytes) : Prop := a.map low = b.map low
instance (a b : Bytes) : Decidable (SameName a b) := by unfold SameName; infer_instance

/-- code points without a picture, which HFS+ ignores in file names: U+200C..200F, U+202A..202E, U+206A..206F, U+FEFF -/
def Invisible (v : Nat) : Prop := (0x200c ≤ v ∧ v ≤ 0x200f) ∨ (0x202a ≤ v ∧ v ≤ 0x202e) ∨ (0x206a ≤ v ∧ v ≤ 0x206f) ∨ v = 0xfeff
instance (v : Nat) : Decidable (Invisible v) := by unfold Invisible; infer_instance

/-- HFS+ takes `comp` for the ASCII name `name`: without the invisible code points it is `name` up to case -/
def HfsSame (comp name : Bytes) : Prop :=
  ∃ vs : List Nat, (∀ v ∈ vs, Scalar v ∧ ¬ Nonchar v) ∧ comp = vs.flatMap encode ∧
    (vs.filter (fun v => ¬ Invisible v)).map (fun v => if 65 ≤ v ∧ v ≤ 90 then v + 32 else v) = name.map (·.toNat)

/-- what NTFS drops from the end of a name -/
def Dropped (s : Bytes) : Prop := ∀ c ∈ s, c = c!" " ∨ c = c!"."
instance (s : Bytes) : Decidable (Dropped s) := by unfold Dropped; infer_instance

/-- NTFS takes the component for the directory `.git` (or its short name), possibly followed by a path below it or an alternate stream -/
def NtfsDotGit (comp : Bytes) : Prop :=
  ∃ n rest, comp = n ++ rest ∧ (SameName n b!".git" ∨ SameName n b!"git~1") ∧
    (rest.head? = some c!"\\" ∨ rest.head? = some c!":" ∨ Dropped rest)

/-- NTFS takes the last component for a file whose name is `n`: trailing blanks and dots are dropped and a stream name is allowed -/
def NtfsEnds (rest : Bytes) : Prop := ∃ d, Dropped d ∧ (rest = d ∨ ∃ t, rest = d ++ c!":" :: t)

def Digit (c : UInt8) : Prop := c!"0" ≤ c ∧ c ≤ c!"9"
instance (c : UInt8) : Decidable (Digit c) := by unfold Digit; infer_instance

/-- the name or one of its short forms: `.gitmodules`, `gitmod~1` ... `gitmod~4`, and the eight characters of the form
`gi7eba~1`, `gi7eb~10`, ... -/
def NtfsForm (name hash n : Bytes) : Prop :=
  SameName n (c!"." :: name) ∨
  (∃ a d, n = a ++ [c!"~", d] ∧ SameName a (name.take 6) ∧ c!"1" ≤ d ∧ d ≤ c!"4") ∨
  (∃ a d ds, n = a ++ c!"~" :: d :: ds ∧ n.length = 8 ∧ a.length ≤ 6 ∧ SameName a (hash.take a.length) ∧
    Digit d ∧ d ≠ c!"0" ∧ ∀ x ∈ ds, Digit x)

/-- the check for a component that another one follows: only a stream name counts as an end (the code goes on to the `/`) -/
def NtfsEndsMid (rest : Bytes) : Prop := ∃ d t, Dropped d ∧ rest = d ++ c!":" :: t

def NtfsFile (name hash comp : Bytes) : Prop := ∃ n rest, comp = n ++ rest ∧ NtfsForm name hash n ∧ NtfsEnds rest


def NtfsFileMid (name hash comp : Bytes) : Prop := ∃ n rest, comp = n ++ rest ∧ NtfsForm name hash n ∧ NtfsEndsMid rest

/-- a DOS device: its name, a digit 1 to 9 for the numbered ones, and then nothing or an extension or a colon -/
def DosDevice (comp : Bytes) : Prop :=
  ∃ n rest, comp = n ++ rest ∧ (rest = [] ∨ rest.head? = some c!"." ∨ rest.head? = some c!":") ∧
    ((∃ d ∈ [b!"con", b!"prn", b!"aux", b!"nul"], SameName n d) ∨
     (∃ d ∈ [b!"com", b!"lpt"], ∃ x, c!"1" ≤ x ∧ x ≤ c!"9" ∧ SameName n (d ++ [x])))

/-- what the check for HFS+ compares of a code point: its low byte, in lower case -/
def lowByte (v : Nat) : UInt8 := low (UInt8.ofNat v)

/-- the code points the check looks at -/
def Good (v : Nat) : Prop := Scalar v ∧ ¬ Nonchar v

/-- what the check for HFS+ finds (a superset of `HfsSame`, see `C42_hfs_same`): the low bytes of the visible code points are `name`, and
then comes the end or a code point whose low byte is zero, with anything behind it -/
def HfsLike (comp name : Bytes) : Prop :=
  ∃ (vs : List Nat) (rest : Bytes), (∀ v ∈ vs, Good v) ∧ comp = vs.flatMap encode ++ rest ∧
    (vs.filter (fun v => ¬ Invisible v)).map lowByte = name ∧
    (rest = [] ∨ ∃ v t, Good v ∧ ¬ Invisible v ∧ lowByte v = 0 ∧ rest = encode v ++ t)

end Verif.PathValid.Spec
