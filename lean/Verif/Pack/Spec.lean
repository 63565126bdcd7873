import Verif.Delta.Spec
import Verif.Varint.Spec
/-! # Pack entries (gitformat-pack, "pack-*.pack files have the following format"), stated independently of the code -/
namespace Verif.Pack.Spec
open Verif.Delta.Spec

/-- type and size at the start of an entry: the first byte holds the continuation bit, three bits of type and the low four bits
of the size; the rest of the size follows as a little-endian base-128 number -/
inductive EncodesHeader : Nat → Nat → Bytes → Prop
  | short (c : UInt8) : c.toNat < 128 → EncodesHeader (c.toNat / 16) (c.toNat % 16) [c]
  | long (c : UInt8) {n bs} : 128 ≤ c.toNat → EncodesSize n bs →
      EncodesHeader (c.toNat / 16 % 8) (c.toNat % 16 + 16 * n) (c :: bs)

/-- the contents of the entries of a pack with the given bytes, whose index gives `find` and whose compressed streams
decompress by `inflate` (a stream may not begin in the trailing checksum) -/
structure Source where
  file : Bytes
  find : Bytes → Option Nat
  inflate : Bytes → Option Bytes

/-- the stream at `pos` holds exactly the `size` bytes `d` -/
def Source.Stream (s : Source) (pos size : Nat) (d : Bytes) : Prop :=
  pos + 20 ≤ s.file.length ∧ s.inflate (s.file.drop pos) = some d ∧ d.length = size ∧ size + 1 < 2 ^ 64

/-- the delta `delta` makes `out` from `base` -/
def Makes (base delta out : Bytes) : Prop :=
  ∃ h1 h2 ops is, delta = h1 ++ h2 ++ ops ∧
    (∃ m, EncodesSize m h1 ∧ h1.length ≤ 5 ∧ base.length = m % 2 ^ 32) ∧
    (∃ m, EncodesSize m h2 ∧ h2.length ≤ 5 ∧ out.length = m % 2 ^ 32) ∧
    EncodesAll is ops ∧ evalAll base is = some out

/-- the base named by a delta entry at `off` whose header ends at `pos`: at `base`, the stream starting at `pos'` -/
inductive Source.Base (s : Source) (off pos : Nat) : Nat → Nat → Nat → Prop
  | ofs (bs rest : Bytes) : s.file.drop pos = bs ++ rest → Varint.Spec.WellFormed bs → 0 < Varint.Spec.value bs →
      Varint.Spec.value bs < off → pos + 20 ≤ s.file.length →
      Source.Base s off pos 6 (off - Varint.Spec.value bs) (pos + bs.length)
  | ref (base : Nat) : pos + 20 ≤ s.file.length → s.find ((s.file.drop pos).take 20) = some base → 0 < base →
      Source.Base s off pos 7 base (pos + 20)

/-- `Entry s off t d`: the entry at `off` denotes an object of type `t` with contents `d` -/
inductive Source.Entry (s : Source) : Nat → Nat → Bytes → Prop
  | whole {off t n size h rest d} : s.file.drop off = h ++ rest → EncodesHeader t n h → h.length ≤ 10 → size = n % 2 ^ 64 →
      (t = 1 ∨ t = 2 ∨ t = 3 ∨ t = 4) → s.Stream (off + h.length) size d → Source.Entry s off t d
  | delta {off t n size h rest base pos tb db delta out} : s.file.drop off = h ++ rest → EncodesHeader t n h → h.length ≤ 10 →
      size = n % 2 ^ 64 → s.Base off (off + h.length) t base pos → Source.Entry s base tb db →
      s.Stream pos size delta → Makes db delta out → Source.Entry s off tb out

end Verif.Pack.Spec
