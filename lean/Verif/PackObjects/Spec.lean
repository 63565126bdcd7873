import Verif.Pack.Spec
/-! # What building a pack means, stated independently of the code -/
namespace Verif.PackObjects.Spec
open Verif.Pack.Spec

/-- what is outside: the object database gives the type and the contents of an object; `inflate` decompresses a stream that may be followed by other bytes -/
structure World where
  odb : Bytes → Option (Nat × Bytes)
  inflate : Bytes → Option Bytes
  sha : Bytes → Bytes

/-- the place of entry number `k` in the pack: after the header and the entries before it -/
def offset (entries : List (Bytes × Bytes)) (k : Nat) : Nat := 12 + ((entries.take k).map fun e => e.2.length).sum

/-- reading the entry at `off` takes `k` steps from a delta to its base -/
inductive Hops (s : Source) : Nat → Nat → Prop
  | whole {off t n h rest} : s.file.drop off = h ++ rest → EncodesHeader t n h → 1 ≤ t → t ≤ 4 → Hops s off 0
  | delta {off n h rest base k} : s.file.drop off = h ++ rest → EncodesHeader 7 n h →
      s.find ((s.file.drop (off + h.length)).take 20) = some base → Hops s base k → Hops s off (k + 1)

/-- a number in four bytes, most significant first -/
def count4 (n : Nat) : Bytes := [UInt8.ofNat (n / 16777216), UInt8.ofNat (n / 65536), UInt8.ofNat (n / 256), UInt8.ofNat n]

/-- `file` is a pack of version 2 with the entries `entries` (id and bytes): a header with their number, the entries, the hash of all that -/
def Layout (sha : Bytes → Bytes) (entries : List (Bytes × Bytes)) (file : Bytes) : Prop :=
  let body := b!"PACK" ++ [0, 0, 0, 2] ++ count4 entries.length ++ (entries.map fun e => e.2).flatten
  file = body ++ sha body ∧ entries.length < 2 ^ 32

/-- Entry number `k` denotes the object it stands for, and is at most `depth` deltas away from a whole object. Any index `find` may be used to look up bases as long as it knows the entries
*before* this one: a base never comes later. -/
def Right (W : World) (depth : Nat) (entries : List (Bytes × Bytes)) (file : Bytes) (k : Nat) : Prop :=
  ∀ id bs, entries[k]? = some (id, bs) → ∀ find : Bytes → Option Nat,
    (∀ j id' bs', j < k → entries[j]? = some (id', bs') → find id' = some (offset entries j)) →
    ∃ t d, W.odb id = some (t, d) ∧ Source.Entry ⟨file, find, W.inflate⟩ (offset entries k) t d ∧
      ∃ n, n ≤ depth ∧ Hops ⟨file, find, W.inflate⟩ (offset entries k) n

/-- `file` is a pack that holds exactly the objects `ids`, each once -/
def PackOf (W : World) (depth : Nat) (ids : List Bytes) (file : Bytes) : Prop :=
  ∃ entries : List (Bytes × Bytes), (entries.map fun e => e.1).Perm ids ∧ Layout W.sha entries file ∧ ∀ k, Right W depth entries file k

/-- a compressor: decompressing what it made gives back the input, and it never makes an empty stream -/
structure Compresses (deflate : Bytes → Bytes) (inflate : Bytes → Option Bytes) : Prop where
  back : ∀ d rest, inflate (deflate d ++ rest) = some d
  some' : ∀ d, deflate d ≠ []

/-- an object database as git has it: four types of objects, ids of twenty bytes, no object as large as the address space -/
structure Plausible (odb : Bytes → Option (Nat × Bytes)) : Prop where
  id : ∀ id o, odb id = some o → id.length = 20
  type : ∀ id t d, odb id = some (t, d) → 1 ≤ t ∧ t ≤ 4
  size : ∀ id t d, odb id = some (t, d) → d.length + 1 < 2 ^ 64

end Verif.PackObjects.Spec
