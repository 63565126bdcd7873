import Verif.Base
import Verif.Oid.Spec
/-! # Grafts, stated independently of their parser -/
namespace Verif.Grafts.Spec

/-- what a line says: the commit `oid` has these parents, whatever is in the commit -/
structure Graft where
  oid : Bytes
  parents : List Bytes
  deriving DecidableEq, Repr

/-- the text of an id, in digits of either case -/
def IsId (size : Nat) (t id : Bytes) : Prop := t.length = 2 * size ∧ t.mapM Oid.Spec.hexVal = some (Oid.Spec.nibbles id)

/-- a line (without its line feed): ids, separated by single spaces -/
def Line (size : Nat) (l : Bytes) (g : Graft) : Prop :=
  ∃ (t : Bytes) (ps : List (Bytes × Bytes)), l = t ++ ps.flatMap (fun p => b!" " ++ p.1) ∧ IsId size t g.oid ∧ g.parents = ps.map (·.2) ∧
    ∀ p ∈ ps, IsId size p.1 p.2

/-- what the lines of a file say, and the code: reading stops with an error at the first line that says nothing -/
inductive File (size : Nat) : List Bytes → List Graft → Int → Prop
  | done : File size [] [] 0
  | bad (l ls) : (∀ g, ¬ Line size l g) → File size (l :: ls) [] (-1)
  | good (l ls g gs c) : Line size l g → File size ls gs c → File size (l :: ls) (g :: gs) c

/-- the text of a file is that of its lines; the last one need not be ended -/
def IsText (text : Bytes) (ls : List Bytes) : Prop :=
  (∀ l ∈ ls, c!"\n" ∉ l) ∧
  (text = ls.flatMap (fun l => l ++ b!"\n") ∨ (∃ (pre : List Bytes) (last : Bytes), ls = pre ++ [last] ∧ last ≠ [] ∧ text = pre.flatMap (fun l => l ++ b!"\n") ++ last))

/-- the parents a commit has according to these lines: the last one counts -/
def parentsOf (gs : List Graft) (oid : Bytes) : Option (List Bytes) := (gs.reverse.find? (fun g => g.oid = oid)).map (·.parents)

/-! ## A file that is looked at now and then -/

/-- the last contents that were read, of what was found each time -/
def lastRead (files : List (Option Bytes)) : Option Bytes := (files.filterMap id).getLast?

/-- at the last looks, the contents were these, and before them there were others (or none ever) -/
def Settled (files : List (Option Bytes)) (text : Bytes) (n : Nat) : Prop :=
  ∃ pre, files = pre ++ List.replicate (n + 1) (some text) ∧ lastRead pre ≠ some text

/-- what was found at the last look is in force -/
def UpToDate (files : List (Option Bytes)) : Prop := files.getLast? = some none ∨ ∃ text n, Settled files text n

/-- what a file says, and the code; if there is none it says nothing -/
def Says (size : Nat) : Option Bytes → List Graft → Int → Prop
  | none, gs, c => gs = [] ∧ c = 0
  | some text, gs, c => ∃ ls, IsText text ls ∧ File size ls gs c

/-- the file that says that these commits are roots -/
def rootsFile (roots : List Bytes) : Bytes := roots.flatMap (fun id => Oid.Spec.hex id ++ b!"\n")

/-- the checksum tells the contents apart that were found -/
structure Tells (sha : Bytes → Bytes) (files : List (Option Bytes)) : Prop where
  inj : ∀ a b, some a ∈ files → some b ∈ files → sha a = sha b → a = b
  nonzero : ∀ a, some a ∈ files → sha a ≠ List.replicate 32 0

/-- what happens to a repository that was opened, as far as these files go -/
inductive Event where
  /-- someone replaces or removes `info/grafts` -/
  | graftsFile (f : Option Bytes)
  /-- someone replaces or removes `shallow` -/
  | shallowFile (f : Option Bytes)
  /-- a fetch asks for the roots -/
  | roots
  /-- a fetch stores the roots it has got -/
  | store (roots : List Bytes) (placed : Bool)

/-- the ids of an event have the size of ids -/
def EventOk (size : Nat) : Event → Prop
  | .store roots _ => ∀ id ∈ roots, id.length = size
  | _ => True

end Verif.Grafts.Spec
