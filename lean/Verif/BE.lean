import Verif.Base
/-! # Big-endian integers on the wire: `htonl`, `htons`, `ntohl`, `ntohs` and reads out of a buffer -/
namespace Verif

/-- the four bytes of `htonl(x)` -/
def be32 (x : UInt32) : Bytes :=
  [UInt8.ofNat (x.toNat / 16777216), UInt8.ofNat (x.toNat / 65536), UInt8.ofNat (x.toNat / 256), UInt8.ofNat x.toNat]

/-- the two bytes of `htons(x)` -/
def be16 (x : UInt16) : Bytes := [UInt8.ofNat (x.toNat / 256), UInt8.ofNat x.toNat]

/-- `ntohl` of the four bytes at an offset; outside the buffer it is undefined -/
def rd32 (b : Bytes) (off : Nat) : Res UInt32 :=
  match slice b off 4 with
  | .ok [a, b, c, d] => .ok (UInt32.ofNat (a.toNat * 16777216 + b.toNat * 65536 + c.toNat * 256 + d.toNat))
  | _ => .ub

/-- `ntohs` of the two bytes at an offset -/
def rd16 (b : Bytes) (off : Nat) : Res UInt16 :=
  match slice b off 2 with
  | .ok [a, b] => .ok (UInt16.ofNat (a.toNat * 256 + b.toNat))
  | _ => .ub

theorem be32_length (x : UInt32) : (be32 x).length = 4 := rfl
theorem be16_length (x : UInt16) : (be16 x).length = 2 := rfl

theorem slice_append {pre mid post : Bytes} {off len : Nat} (h1 : pre.length = off) (h2 : mid.length = len) :
    slice (pre ++ mid ++ post) off len = .ok mid := by
  unfold slice
  rw [if_pos (by simp; omega)]
  subst h1 h2
  simp

theorem slice_len {b : Bytes} {off len : Nat} (h : off + len ≤ b.length) : ∃ m, slice b off len = .ok m ∧ m.length = len := by
  refine ⟨_, by unfold slice; rw [if_pos h], ?_⟩
  simp; omega

theorem rd32_at {pre post : Bytes} {x : UInt32} {off : Nat} (h : pre.length = off) : rd32 (pre ++ be32 x ++ post) off = .ok x := by
  unfold rd32
  rw [slice_append h (be32_length x)]
  simp only [be32, UInt8.toNat_ofNat']
  congr 1
  apply UInt32.toNat_inj.mp
  have := x.toNat_lt
  rw [UInt32.toNat_ofNat']
  omega

theorem rd16_at {pre post : Bytes} {x : UInt16} {off : Nat} (h : pre.length = off) : rd16 (pre ++ be16 x ++ post) off = .ok x := by
  unfold rd16
  rw [slice_append h (be16_length x)]
  simp only [be16, UInt8.toNat_ofNat']
  congr 1
  apply UInt16.toNat_inj.mp
  have := x.toNat_lt
  rw [UInt16.toNat_ofNat']
  omega

theorem rd32_ok {b : Bytes} {off : Nat} (h : off + 4 ≤ b.length) : ∃ x, rd32 b off = .ok x := by
  obtain ⟨m, h1, h2⟩ := slice_len h
  unfold rd32
  rw [h1]
  match m, h2 with
  | [a, b, c, d], _ => exact ⟨_, rfl⟩

theorem rd16_ok {b : Bytes} {off : Nat} (h : off + 2 ≤ b.length) : ∃ x, rd16 b off = .ok x := by
  obtain ⟨m, h1, h2⟩ := slice_len h
  unfold rd16
  rw [h1]
  match m, h2 with
  | [a, b], _ => exact ⟨_, rfl⟩

end Verif
