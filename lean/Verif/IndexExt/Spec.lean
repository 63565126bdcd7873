import Verif.Strtol.Spec
import Verif.IndexTree.Model
/-! # Specification: the contents of the `REUC`, `NAME` and `TREE` extensions of an index file

As in git's `index-format` documentation. Only `Strtol.Spec.Number` ("the longest number at the beginning of the text", C46) and the data type
`IndexTree.Cache` are used. -/
namespace Verif.IndexExt.Spec
open Strtol.Spec (Number)
open IndexTree (Cache)

/-- a resolved conflict: path, and mode and object id of the three stages (mode 0: the path was not there) -/
structure Reuc where
  path : Bytes
  mode0 : Nat
  mode1 : Nat
  mode2 : Nat
  oid0 : Bytes
  oid1 : Bytes
  oid2 : Bytes
  deriving DecidableEq, Repr

/-- the names of a renamed file in a conflict (`none`: no such side) -/
structure Name where
  ancestor : Option Bytes
  ours : Option Bytes
  theirs : Option Bytes
  deriving DecidableEq, Repr

/-- the id of a stage: present in the file if the mode is not zero, all zeros otherwise -/
def IdText (mode : Nat) (inFile oid : Bytes) : Prop :=
  if mode = 0 then inFile = [] ∧ oid = List.replicate 20 0 else inFile = oid ∧ oid.length = 20

/-- A `REUC` extension: for every entry the path, the three modes as numbers in base 8, each followed by a NUL, and the ids of the stages there
are. Something has to follow the third mode. -/
inductive ReucText : Bytes → List Reuc → Prop
  | nil : ReucText [] []
  | cons {path m0 : Bytes} {v0 v1 v2 : Nat} {t0 t1 t2 f0 f1 f2 o0 o1 o2 rest : Bytes} {es : List Reuc} :
      (0 : UInt8) ∉ path →
      Number m0 8 v0 (0 :: t0) → v0 < 2 ^ 32 →
      Number t0 8 v1 (0 :: t1) → v1 < 2 ^ 32 →
      Number t1 8 v2 (0 :: t2) → v2 < 2 ^ 32 → t2 ≠ [] →
      t2 = f0 ++ (f1 ++ (f2 ++ rest)) → IdText v0 f0 o0 → IdText v1 f1 o1 → IdText v2 f2 o2 →
      ReucText rest es → ReucText (path ++ 0 :: m0) (⟨path, v0, v1, v2, o0, o1, o2⟩ :: es)

/-- a name in a `NAME` extension: the empty string stands for "none" -/
def NameText (text : Bytes) (n : Option Bytes) : Prop :=
  (0 : UInt8) ∉ text ∧ n = if text = [] then none else some text

/-- A `NAME` extension: three NUL terminated names for every conflict. -/
inductive NamesText : Bytes → List Name → Prop
  | nil : NamesText [] []
  | cons {a o t rest : Bytes} {na no nt : Option Bytes} {ns : List Name} : NameText a na → NameText o no → NameText t nt →
      NamesText rest ns → NamesText (a ++ 0 :: (o ++ 0 :: (t ++ 0 :: rest))) (⟨na, no, nt⟩ :: ns)

mutual
/-- `TreeText b c rest`: `b` begins with the text of the cached tree `c`, and `rest` follows: the name and a NUL, the number of entries (negative:
not valid) and a space, the number of subtrees and a newline, the id if the entry is valid, and the subtrees. -/
inductive TreeText : Bytes → Cache → Bytes → Prop
  | node {name b t1 t2 t3 f oid rest : Bytes} {count kids : Int} {cs : List Cache} : (0 : UInt8) ∉ name →
      Number b 10 count (c!" " :: t1) → -(2 ^ 31) ≤ count → count < 2 ^ 31 →
      Number t1 10 kids (c!"\n" :: t2) → 0 ≤ kids → kids < 2 ^ 31 →
      t2 = f ++ t3 → (if count < 0 then f = [] ∧ oid = List.replicate 20 0 else f = oid ∧ oid.length = 20) →
      KidsText t3 kids.toNat cs rest → TreeText (name ++ 0 :: b) (.mk name count oid cs) rest
/-- that many cached trees in a row -/
inductive KidsText : Bytes → Nat → List Cache → Bytes → Prop
  | zero {b : Bytes} : KidsText b 0 [] b
  | succ {b b' rest : Bytes} {n : Nat} {c : Cache} {cs : List Cache} :
      TreeText b c b' → KidsText b' n cs rest → KidsText b (n + 1) (c :: cs) rest
end

/-! ## What a program may have in memory -/

/-- a resolved conflict: the path is a string, the modes fit 32 bits, and a stage that is not there has a zero id -/
structure Reuc.Ok (e : Reuc) : Prop where
  path : (0 : UInt8) ∉ e.path
  modes : e.mode0 < 2 ^ 32 ∧ e.mode1 < 2 ^ 32 ∧ e.mode2 < 2 ^ 32
  ids : e.oid0.length = 20 ∧ e.oid1.length = 20 ∧ e.oid2.length = 20
  zero : (e.mode0 = 0 → e.oid0 = List.replicate 20 0) ∧ (e.mode1 = 0 → e.oid1 = List.replicate 20 0) ∧
    (e.mode2 = 0 → e.oid2 = List.replicate 20 0)

/-- names that are not empty strings -/
def Name.Ok (n : Name) : Prop :=
  ∀ s, n.ancestor = some s ∨ n.ours = some s ∨ n.theirs = some s → s ≠ [] ∧ (0 : UInt8) ∉ s

/-- a cache tree whose nodes are valid (with a count) or marked invalid by `-1` -/
inductive CacheOk : Cache → Prop
  | mk {name oid : Bytes} {count : Int} {cs : List Cache} : (0 : UInt8) ∉ name → -1 ≤ count → count < 2 ^ 31 → oid.length = 20 →
      cs.length < 2 ^ 31 → (∀ c ∈ cs, CacheOk c) → CacheOk (.mk name count oid cs)

/-- the same names, counts and shape, and the same id wherever the node is valid -/
inductive Same : Cache → Cache → Prop
  | mk {name oid oid' : Bytes} {count : Int} {cs cs' : List Cache} : (0 ≤ count → oid = oid') → cs.length = cs'.length →
      (∀ (i : Nat) c c', cs[i]? = some c → cs'[i]? = some c' → Same c c') → Same (.mk name count oid cs) (.mk name count oid' cs')

end Verif.IndexExt.Spec
