import Verif.PackObjects.Spec
import Verif.Loose.Spec
/-! # What receiving a pack means, stated independently of the code -/
namespace Verif.Indexer.Spec
open Verif.Pack.Spec Verif.PackObjects.Spec

/-- what zlib makes of some bytes: it wants more of them, or finds them wrong, or the first `used` of them are a whole stream -/
inductive Infl where
  | more
  | bad
  | done (used : Nat) (data : Bytes)
  deriving DecidableEq, Repr

/-- zlib reads from the front: whether there is a whole stream, and what is in it, does not depend on what follows it; wrong bytes do not become right when more come -/
structure Zlib (inflate : Bytes → Infl) : Prop where
  used : ∀ b n d, inflate b = .done n d → 0 < n ∧ n ≤ b.length
  stream : ∀ b n d rest, inflate b = .done n d → inflate (b.take n ++ rest) = .done n d
  bad : ∀ b rest, inflate b = .bad → inflate (b ++ rest) = .bad

/-- an entry as it lies in the file: from `off` to `stop`, of some type, with the size its header says, with a stream from `start` to `stop` that holds `data` -/
structure Ent where
  off : Nat
  type : Nat
  size : Nat
  start : Nat
  stop : Nat
  data : Bytes
  deriving DecidableEq, Repr

/-- what comes before the stream of the entry at `off`: a header, then for a delta (type 7) the id of its base, or (type 6) the distance to it -/
inductive Head (file : Bytes) (off : Nat) : Nat → Nat → Nat → Prop
  | ref {h rest n} : file.drop off = h ++ rest → EncodesHeader 7 n h → h.length ≤ 10 → Head file off 7 (n % 2 ^ 64) (off + h.length + 20)
  | ofs {h bs rest n} : file.drop off = h ++ (bs ++ rest) → EncodesHeader 6 n h → h.length ≤ 10 → Varint.Spec.WellFormed bs → 0 < Varint.Spec.value bs →
      Varint.Spec.value bs < off → Head file off 6 (n % 2 ^ 64) (off + h.length + bs.length)
  | whole {h rest n t} : t ≠ 6 → t ≠ 7 → file.drop off = h ++ rest → EncodesHeader t n h → h.length ≤ 10 → Head file off t (n % 2 ^ 64) (off + h.length)

/-- `e` is an entry of the file -/
structure EntryOf (inflate : Bytes → Infl) (file : Bytes) (e : Ent) : Prop where
  head : Head file e.off e.type e.size e.start
  stream : inflate (file.drop e.start) = .done (e.stop - e.start) e.data
  after : e.start ≤ e.stop

/-- the entries follow each other from `a` to `b` -/
def Run : Nat → List Ent → Nat → Prop
  | a, [], b => a = b
  | a, e :: es, b => e.off = a ∧ Run e.stop es b

/-- `file` is a pack of version 2: a header with the number of the entries, the entries `ents` up to `stop`, at the end the hash of all before it -/
structure Layout (inflate : Bytes → Infl) (sha : Bytes → Bytes) (file : Bytes) (ents : List Ent) (stop : Nat) : Prop where
  header : file.take 12 = b!"PACK" ++ [0, 0, 0, 2] ++ count4 ents.length
  count : ents.length < 2 ^ 32
  run : Run 12 ents stop
  room : stop + 20 ≤ file.length
  entry : ∀ e ∈ ents, EntryOf inflate file e
  trailer : file.drop (file.length - 20) = sha (file.take (file.length - 20))

/-- types of whole objects -/
def Whole (e : Ent) : Prop := e.type ≠ 6 ∧ e.type ≠ 7
instance (e : Ent) : Decidable (Whole e) := by unfold Whole; infer_instance

/-- a whole object of a known type that is as long as its header says (and not longer than any memory) -/
def Sound (e : Ent) : Prop := 1 ≤ e.type ∧ e.type ≤ 4 ∧ e.data.length = e.size ∧ e.size < 2 ^ 63
instance (e : Ent) : Decidable (Sound e) := by unfold Sound; infer_instance

/-- `id` is the name of the object of this type and contents -/
def Named (sha : Bytes → Bytes) (t : Nat) (d id : Bytes) : Prop := ∃ h, Loose.Spec.Header t d.length h ∧ id = sha (h ++ d)

/-- what is in the stream the bytes start with -/
def contents (inflate : Bytes → Infl) (b : Bytes) : Option Bytes := match inflate b with | .done _ d => some d | _ => none

/-- With an index that finds `find`: the entry `e` can be read, and is the object named `id`. For a delta this means that its base can be found, and so on. -/
structure Stands (inflate : Bytes → Infl) (sha : Bytes → Bytes) (file : Bytes) (find : Bytes → Option Nat) (e : Ent) (id : Bytes) : Prop where
  delta : ¬ Whole e → ∃ t d, (⟨file, find, contents inflate⟩ : Source).Entry e.off t d ∧ Named sha t d id
  whole : Sound e → (⟨file, find, contents inflate⟩ : Source).Entry e.off e.type e.data ∧ Named sha e.type e.data id

end Verif.Indexer.Spec
