import Verif.Varint.Lemmas
/-! # C01: index-v4 varints -/
namespace Verif.Varint
open Spec

/-- C01: what is encoded is decoded unchanged, consuming exactly the bytes written, whatever follows them. -/
theorem C01_roundtrip (v : UInt64) (suffix : Bytes) :
    decode (encodeBytes v ++ suffix) = .ok (v, (encodeBytes v).length) := by
  obtain ⟨c, cs, h1, h2, h3⟩ := encodeBytes_spec v
  rw [h1]
  have hc : (c &&& 127).toUInt64.toNat = c.toNat % 128 := low7' c
  have := decodeLoop_ok cs suffix c (c &&& 127).toUInt64 1 h2 (by rw [hc, h3]; exact v.toNat_lt)
  obtain ⟨w, h4, h5⟩ := this
  simp only [List.cons_append, decode, h4]
  rw [hc, h3] at h5
  rw [UInt64.toNat_inj.mp h5]
  simp [Nat.add_comm]

/-- C01: the encoder never overruns its 16-byte scratch array (at most ten bytes are produced), it fails only when the
caller's buffer is too small, and the size query (`NULL` buffer) returns the size actually used. -/
theorem C01_encode_total (bufsize : Option Nat) (v : UInt64) :
    (encodeBytes v).length ≤ 10 ∧
    encode bufsize v = match bufsize with
      | none => .ok ([], (encodeBytes v).length)
      | some k => if k < (encodeBytes v).length then .err (-1) else .ok (encodeBytes v, (encodeBytes v).length) := by
  obtain ⟨c, cs, h1, h2, h3⟩ := encodeBytes_spec v
  have hv := v.toNat_lt
  have h4 := length_of_dec_lt cs _ (by rw [h3]; exact hv)
  have h5 : (encodeBytes v).length ≤ 10 := by rw [h1]; simp; omega
  refine ⟨h5, ?_⟩
  unfold encode
  simp only
  rw [if_neg (by omega)]
  cases bufsize <;> rfl

/-- C01: a well-formed varint is decoded to its exact mathematical value, or rejected when that value does not fit in 64
bits: the result is never a wrapped number. -/
theorem C01_decode_exact (bs suffix : Bytes) (h : WellFormed bs) :
    (value bs < 2 ^ 64 → ∃ v : UInt64, decode (bs ++ suffix) = .ok (v, bs.length) ∧ v.toNat = value bs) ∧
    (2 ^ 64 ≤ value bs → decode (bs ++ suffix) = .err (-1)) := by
  cases bs with
  | nil => exact h.elim
  | cons c cs =>
    have hc : (c &&& 127).toUInt64.toNat = c.toNat % 128 := low7' c
    rw [value_cons]
    constructor
    · intro hv
      obtain ⟨w, h4, h5⟩ := decodeLoop_ok cs suffix c (c &&& 127).toUInt64 1 h (by rw [hc]; exact hv)
      refine ⟨w, ?_, by rw [h5, hc]⟩
      simp only [List.cons_append, decode, h4]
      simp [Nat.add_comm]
    · intro hv
      exact decodeLoop_err cs suffix c _ 1 h (by rw [hc]; exact hv)

/-- C01: conversely, whatever the bytes, a successful decode consumed a well-formed varint at the start of the buffer and
returned its exact value. -/
theorem C01_decode_sound (bs : Bytes) (v : UInt64) (n : Nat) (h : decode bs = .ok (v, n)) :
    n ≤ bs.length ∧ WellFormed (bs.take n) ∧ v.toNat = value (bs.take n) := by
  cases bs with
  | nil => simp [decode] at h
  | cons c rest =>
    obtain ⟨cs, sfx, h1, h2, h3, h4⟩ := decodeLoop_inv rest c _ 1 v n h
    have hc : (c &&& 127).toUInt64.toNat = c.toNat % 128 := low7' c
    subst h1
    have : n = cs.length + 1 := by omega
    subst this
    simp only [List.take_succ_cons, List.take_left']
    refine ⟨by simp, h3, ?_⟩
    rw [h4, hc, value_cons]

/-- C01: the decoder has no bounds argument, but it never reads more than eleven bytes: any buffer with eleven bytes
left (the index always ends in a 20-byte checksum) is read inside its bounds. -/
theorem C01_decode_in_bounds (bs : Bytes) (h : 11 ≤ bs.length) : decode bs ≠ .ub := by
  cases bs with
  | nil => simp at h
  | cons c rest =>
    exact decodeLoop_bound rest c _ 1 10 (by
      have : (2:Nat)^64 ≤ 1 * 128 ^ 10 := by decide
      exact Nat.le_trans this (Nat.mul_le_mul_right _ (by omega))) (by simpa using h)

-- the hypotheses are met by non-trivial data: a two-byte varint, an overflowing one
example : WellFormed [0x80, 0x00] ∧ value [0x80, 0x00] = 128 := by
  refine ⟨by simp [WellFormed], by decide⟩
example : decode [0x81, 0x05, 0xff] = .ok (261, 2) := by decide +kernel
example : decode [0xff,0xff,0xff,0xff,0xff,0xff,0xff,0xff,0xff,0xff,0x7f] = .err (-1) := by decide +kernel
example : encode (some 16) 300 = .ok ([0x81, 0x2c], 2) := by decide +kernel

end Verif.Varint
