import Verif.Delta.Model
import Verif.Delta.Spec
namespace Verif.Delta
open Spec

theorem or_mul_two_pow (r x k : Nat) (h : r < 2 ^ k) : r ||| x * 2 ^ k = r + x * 2 ^ k := by
  rw [Nat.or_comm, Nat.mul_comm, ← Nat.two_pow_add_eq_or_of_lt h, Nat.add_comm]

/-! ### size headers -/

theorem mod_shift (d shift : Nat) (h : shift < 32) : (d * 2 ^ shift) % 2 ^ 32 = (d % 2 ^ (32 - shift)) * 2 ^ shift := by
  have : (2:Nat) ^ 32 = 2 ^ (32 - shift) * 2 ^ shift := by
    rw [← Nat.pow_add]; congr 1; omega
  rw [this, Nat.mul_mod_mul_right]

/-- value accumulated by one step of `hdr_sz` -/
theorem hdr_step (r d shift : Nat) (hs : shift < 32) (hr : r < 2 ^ shift) (hd : d < 128) :
    (r ||| (d * 2 ^ shift) % 2 ^ 32) = (r + d * 2 ^ shift) % 2 ^ 32 ∧
    (r ||| (d * 2 ^ shift) % 2 ^ 32) < 2 ^ (shift + 7) := by
  rw [mod_shift d shift hs, or_mul_two_pow _ _ _ hr]
  have e : (2:Nat) ^ 32 = 2 ^ (32 - shift) * 2 ^ shift := by
    rw [← Nat.pow_add]; congr 1; omega
  have h1 : d % 2 ^ (32 - shift) < 2 ^ (32 - shift) := Nat.mod_lt _ (Nat.pow_pos (by decide))
  have h2 : (d % 2 ^ (32 - shift) + 1) * 2 ^ shift ≤ 2 ^ (32 - shift) * 2 ^ shift := Nat.mul_le_mul_right _ h1
  have h3 : (d % 2 ^ (32 - shift) + 1) * 2 ^ shift ≤ 2 ^ 7 * 2 ^ shift :=
    Nat.mul_le_mul_right _ (by have := Nat.mod_le d (2 ^ (32 - shift)); omega)
  rw [Nat.add_mul, Nat.one_mul] at h2 h3
  constructor
  · have h0 : r < 2 ^ 32 := by omega
    rw [Nat.add_mod r (d * 2 ^ shift), Nat.mod_eq_of_lt h0, mod_shift d shift hs]
    exact (Nat.mod_eq_of_lt (by omega)).symm
  · rw [Nat.pow_add]; omega

theorem hdrSz_complete (n : Nat) (bs rest : Bytes) (h : EncodesSize n bs) :
    ∀ (k r : Nat), k + bs.length ≤ 5 → r < 2 ^ (7 * k) → r < 2 ^ 32 →
      hdrSz r (7 * k) (bs ++ rest) = .ok ((r + n * 2 ^ (7 * k)) % 2 ^ 32, rest) := by
  induction h with
  | last c hc =>
    intro k r hk hr hr32
    simp only [List.length_singleton] at hk
    rw [List.singleton_append, hdrSz, if_neg (by omega)]
    have := hdr_step r (c.toNat % 128) (7 * k) (by omega) hr (by omega)
    simp only [if_neg (show ¬ 128 ≤ c.toNat by omega), this.1]
    rw [Nat.mod_eq_of_lt hc]
  | more c hc hn ih =>
    rename_i n bs
    intro k r hk hr hr32
    simp only [List.length_cons] at hk
    rw [List.cons_append, hdrSz, if_neg (by omega)]
    have := hdr_step r (c.toNat % 128) (7 * k) (by omega) hr (by omega)
    simp only [if_pos hc]
    have h2 := ih (k + 1) (r ||| c.toNat % 128 * 2 ^ (7 * k) % 2 ^ 32) (by omega)
      (by rw [show 7 * (k + 1) = 7 * k + 7 by omega]; exact this.2) (by rw [this.1]; exact Nat.mod_lt _ (by decide))
    rw [show 7 * (k + 1) = 7 * k + 7 by omega] at h2
    rw [h2, this.1]
    congr 2
    rw [Nat.mod_add_mod]
    congr 1
    rw [Nat.pow_add, Nat.add_mul, Nat.mul_comm 128 n, Nat.mul_assoc n 128, Nat.mul_comm 128, show (2:Nat)^7 = 128 by decide]
    omega

theorem hdrSz_sound (d : Bytes) : ∀ (k r x : Nat) (d' : Bytes), r < 2 ^ (7 * k) → r < 2 ^ 32 →
      hdrSz r (7 * k) d = .ok (x, d') →
      ∃ n bs, d = bs ++ d' ∧ EncodesSize n bs ∧ k + bs.length ≤ 5 ∧ x = (r + n * 2 ^ (7 * k)) % 2 ^ 32 := by
  induction d with
  | nil => intro k r x d' _ _ h; simp [hdrSz] at h
  | cons c d ih =>
    intro k r x d' hr hr32 h
    rw [hdrSz] at h
    split at h
    · simp at h
    · rename_i hs
      have := hdr_step r (c.toNat % 128) (7 * k) (by omega) hr (by omega)
      simp only at h
      split at h
      · rename_i hc
        rw [show 7 * k + 7 = 7 * (k + 1) by omega] at h
        obtain ⟨n, bs, h1, h2, h3, h4⟩ := ih (k + 1) _ x d' (by rw [show 7 * (k + 1) = 7 * k + 7 by omega]; exact this.2)
          (by rw [this.1]; exact Nat.mod_lt _ (by decide)) h
        refine ⟨c.toNat % 128 + 128 * n, c :: bs, by simp [h1], .more c hc h2, by simp; omega, ?_⟩
        rw [h4, this.1, Nat.mod_add_mod]
        congr 1
        rw [show 7 * (k + 1) = 7 * k + 7 by omega, Nat.pow_add, Nat.add_mul, Nat.mul_comm 128 n, Nat.mul_assoc n 128, Nat.mul_comm 128,
          show (2:Nat)^7 = 128 by decide]
        omega
      · rename_i hc
        simp only [Res.ok.injEq, Prod.mk.injEq] at h
        refine ⟨c.toNat, [c], by simp [h.2], .last c (by omega), by simp; omega, ?_⟩
        rw [← h.1, this.1, Nat.mod_eq_of_lt (show c.toNat < 128 by omega)]

theorem hdrSz_lt (d : Bytes) (x : Nat) (d' : Bytes) (h : hdrSz 0 0 d = .ok (x, d')) : x < 2 ^ 32 := by
  obtain ⟨n, bs, _, _, _, h4⟩ := hdrSz_sound d 0 0 x d' (by simp) (by simp) h
  rw [h4]; exact Nat.mod_lt _ (by decide)

theorem EncodesSize.ne_nil {n : Nat} {bs : Bytes} (h : EncodesSize n bs) : bs ≠ [] := by
  cases h <;> simp

/-! ### instructions -/

theorem addDelta_len {b : Bool} {s o : Nat} {d : Bytes} {o' : Nat} {d' : Bytes}
    (h : addDelta b s o d = .ok (o', d')) : d'.length ≤ d.length := by
  unfold addDelta at h
  cases b
  · simp at h; simp [h.2]
  · cases d with
    | nil => simp at h
    | cons x xs => simp at h; simp [h.2]

theorem addDelta_opt (p : Bool) (v : UInt8) (s o : Nat) (rest : Bytes) (hv : p = false → v = 0) :
    addDelta p s o (opt p v ++ rest) = .ok (o ||| v.toNat * 2 ^ s, rest) := by
  cases p
  · simp [addDelta, opt, hv rfl]
  · simp [addDelta, opt]

theorem addDelta_inv {p : Bool} {s o : Nat} {d : Bytes} {o' : Nat} {d' : Bytes}
    (h : addDelta p s o d = .ok (o', d')) :
    ∃ v : UInt8, (p = false → v = 0) ∧ d = opt p v ++ d' ∧ o' = o ||| v.toNat * 2 ^ s := by
  unfold addDelta at h
  cases p
  · simp at h; exact ⟨0, by simp, by simp [opt, h.2], by simp [h.1]⟩
  · cases d with
    | nil => simp at h
    | cons x xs => simp at h; exact ⟨x, by simp, by simp [opt, h.2], by simp [h.1]⟩

theorem addDelta_no_ub (p : Bool) (s o : Nat) (d : Bytes) : addDelta p s o d ≠ .ub := by
  unfold addDelta; cases p <;> cases d <;> simp

theorem bits : ∀ c : UInt8,
    (decide (c &&& 0x01 ≠ 0) = bit c 0) ∧ (decide (c &&& 0x02 ≠ 0) = bit c 1) ∧ (decide (c &&& 0x04 ≠ 0) = bit c 2) ∧
    (decide (c &&& 0x08 ≠ 0) = bit c 3) ∧ (decide (c &&& 0x10 ≠ 0) = bit c 4) ∧ (decide (c &&& 0x20 ≠ 0) = bit c 5) ∧
    (decide (c &&& 0x40 ≠ 0) = bit c 6) ∧ ((c &&& 0x80 ≠ 0) ↔ bit c 7 = true) := by
  decide +kernel

theorem assemble4 (v0 v1 v2 v3 : UInt8) :
    ((0 ||| v0.toNat * 2 ^ 0) ||| v1.toNat * 2 ^ 8 ||| v2.toNat * 2 ^ 16 ||| v3.toNat * 2 ^ 24)
      = v0.toNat + 2 ^ 8 * v1.toNat + 2 ^ 16 * v2.toNat + 2 ^ 24 * v3.toNat := by
  have h0 := v0.toNat_lt; have h1 := v1.toNat_lt; have h2 := v2.toNat_lt; have h3 := v3.toNat_lt
  rw [Nat.zero_or, Nat.pow_zero, Nat.mul_one]
  rw [or_mul_two_pow _ _ 8 (by omega), or_mul_two_pow _ _ 16 (by omega), or_mul_two_pow _ _ 24 (by omega)]
  omega

theorem assemble3 (v0 v1 v2 : UInt8) :
    ((0 ||| v0.toNat * 2 ^ 0) ||| v1.toNat * 2 ^ 8 ||| v2.toNat * 2 ^ 16)
      = v0.toNat + 2 ^ 8 * v1.toNat + 2 ^ 16 * v2.toNat := by
  have h0 := v0.toNat_lt; have h1 := v1.toNat_lt; have h2 := v2.toNat_lt
  rw [Nat.zero_or, Nat.pow_zero, Nat.mul_one]
  rw [or_mul_two_pow _ _ 8 (by omega), or_mul_two_pow _ _ 16 (by omega)]
  omega

/-- the operands of a well-encoded copy are read back -/
theorem copyArgs_complete (off len : Nat) (bs rest : Bytes) (h : Encodes (.copy off len) bs) :
    ∃ c ops, bs = c :: ops ∧ bit c 7 = true ∧ copyArgs c (ops ++ rest) = .ok (off, len, rest) := by
  obtain ⟨c, v0, v1, v2, v3, v4, v5, v6, h7, p0, p1, p2, p3, p4, p5, p6, hbs, ho, hl⟩ := h
  obtain ⟨b0, b1, b2, b3, b4, b5, b6, _⟩ := bits c
  refine ⟨c, _, hbs, h7, ?_⟩
  unfold copyArgs
  rw [b0, b1, b2, b3, b4, b5, b6]
  simp only [List.append_assoc]
  rw [addDelta_opt _ _ _ _ _ p0]; simp only [Res.bind_ok]
  rw [addDelta_opt _ _ _ _ _ p1]; simp only [Res.bind_ok]
  rw [addDelta_opt _ _ _ _ _ p2]; simp only [Res.bind_ok]
  rw [addDelta_opt _ _ _ _ _ p3]; simp only [Res.bind_ok]
  rw [addDelta_opt _ _ _ _ _ p4]; simp only [Res.bind_ok]
  rw [addDelta_opt _ _ _ _ _ p5]; simp only [Res.bind_ok]
  rw [addDelta_opt _ _ _ _ _ p6]; simp only [Res.bind_ok]
  rw [assemble4, assemble3, ← ho]
  simp only at hl
  rw [hl]

theorem copyArgs_sound (c : UInt8) (d : Bytes) (off len : Nat) (d' : Bytes) (h7 : bit c 7 = true)
    (h : copyArgs c d = .ok (off, len, d')) :
    ∃ ops, d = ops ++ d' ∧ Encodes (.copy off len) (c :: ops) := by
  obtain ⟨b0, b1, b2, b3, b4, b5, b6, _⟩ := bits c
  unfold copyArgs at h
  rw [b0, b1, b2, b3, b4, b5, b6] at h
  cases e0 : addDelta (bit c 0) 0 0 d with
  | err e => simp [e0] at h
  | ub => simp [e0] at h
  | ok x0 =>
  obtain ⟨o0, d0⟩ := x0
  simp only [e0, Res.bind_ok] at h
  cases e1 : addDelta (bit c 1) 8 o0 d0 with
  | err e => simp [e1] at h
  | ub => simp [e1] at h
  | ok x1 =>
  obtain ⟨o1, d1⟩ := x1
  simp only [e1, Res.bind_ok] at h
  cases e2 : addDelta (bit c 2) 16 o1 d1 with
  | err e => simp [e2] at h
  | ub => simp [e2] at h
  | ok x2 =>
  obtain ⟨o2, d2⟩ := x2
  simp only [e2, Res.bind_ok] at h
  cases e3 : addDelta (bit c 3) 24 o2 d2 with
  | err e => simp [e3] at h
  | ub => simp [e3] at h
  | ok x3 =>
  obtain ⟨o3, d3⟩ := x3
  simp only [e3, Res.bind_ok] at h
  cases e4 : addDelta (bit c 4) 0 0 d3 with
  | err e => simp [e4] at h
  | ub => simp [e4] at h
  | ok x4 =>
  obtain ⟨o4, d4⟩ := x4
  simp only [e4, Res.bind_ok] at h
  cases e5 : addDelta (bit c 5) 8 o4 d4 with
  | err e => simp [e5] at h
  | ub => simp [e5] at h
  | ok x5 =>
  obtain ⟨o5, d5⟩ := x5
  simp only [e5, Res.bind_ok] at h
  cases e6 : addDelta (bit c 6) 16 o5 d5 with
  | err e => simp [e6] at h
  | ub => simp [e6] at h
  | ok x6 =>
  obtain ⟨o6, d6⟩ := x6
  simp only [e6, Res.bind_ok, Res.ok.injEq, Prod.mk.injEq] at h
  obtain ⟨v0, p0, q0, r0⟩ := addDelta_inv e0
  obtain ⟨v1, p1, q1, r1⟩ := addDelta_inv e1
  obtain ⟨v2, p2, q2, r2⟩ := addDelta_inv e2
  obtain ⟨v3, p3, q3, r3⟩ := addDelta_inv e3
  obtain ⟨v4, p4, q4, r4⟩ := addDelta_inv e4
  obtain ⟨v5, p5, q5, r5⟩ := addDelta_inv e5
  obtain ⟨v6, p6, q6, r6⟩ := addDelta_inv e6
  obtain ⟨g1, g2, g3⟩ := h
  subst g3
  refine ⟨opt (bit c 0) v0 ++ (opt (bit c 1) v1 ++ (opt (bit c 2) v2 ++ (opt (bit c 3) v3 ++
        (opt (bit c 4) v4 ++ (opt (bit c 5) v5 ++ opt (bit c 6) v6))))), ?_, ?_⟩
  · rw [q0, q1, q2, q3, q4, q5, q6]; simp
  · refine ⟨c, v0, v1, v2, v3, v4, v5, v6, h7, p0, p1, p2, p3, p4, p5, p6, rfl, ?_, ?_⟩
    · rw [← g1, r3, r2, r1, r0, assemble4]
    · rw [← g2, r6, r5, r4, assemble3]

theorem copyArgs_no_ub (c : UInt8) (d : Bytes) : copyArgs c d ≠ .ub := by
  unfold copyArgs
  intro h
  cases e0 : addDelta (decide (c &&& 0x01 ≠ 0)) 0 0 d with
  | err e => rw [e0] at h; simp at h
  | ub => exact addDelta_no_ub _ _ _ _ e0
  | ok x0 =>
  rw [e0] at h; simp only [Res.bind_ok] at h
  cases e1 : addDelta (decide (c &&& 0x02 ≠ 0)) 8 x0.1 x0.2 with
  | err e => rw [e1] at h; simp at h
  | ub => exact addDelta_no_ub _ _ _ _ e1
  | ok x1 =>
  rw [e1] at h; simp only [Res.bind_ok] at h
  cases e2 : addDelta (decide (c &&& 0x04 ≠ 0)) 16 x1.1 x1.2 with
  | err e => rw [e2] at h; simp at h
  | ub => exact addDelta_no_ub _ _ _ _ e2
  | ok x2 =>
  rw [e2] at h; simp only [Res.bind_ok] at h
  cases e3 : addDelta (decide (c &&& 0x08 ≠ 0)) 24 x2.1 x2.2 with
  | err e => rw [e3] at h; simp at h
  | ub => exact addDelta_no_ub _ _ _ _ e3
  | ok x3 =>
  rw [e3] at h; simp only [Res.bind_ok] at h
  cases e4 : addDelta (decide (c &&& 0x10 ≠ 0)) 0 0 x3.2 with
  | err e => rw [e4] at h; simp at h
  | ub => exact addDelta_no_ub _ _ _ _ e4
  | ok x4 =>
  rw [e4] at h; simp only [Res.bind_ok] at h
  cases e5 : addDelta (decide (c &&& 0x20 ≠ 0)) 8 x4.1 x4.2 with
  | err e => rw [e5] at h; simp at h
  | ub => exact addDelta_no_ub _ _ _ _ e5
  | ok x5 =>
  rw [e5] at h; simp only [Res.bind_ok] at h
  cases e6 : addDelta (decide (c &&& 0x40 ≠ 0)) 16 x5.1 x5.2 with
  | err e => rw [e6] at h; simp at h
  | ub => exact addDelta_no_ub _ _ _ _ e6
  | ok x6 =>
  rw [e6] at h; simp at h

theorem slice_ok (b : Bytes) (off len : Nat) (h : off + len ≤ b.length) :
    slice b off len = .ok ((b.drop off).take len) := by simp [slice, h]

theorem length_slice (b : Bytes) (off len : Nat) (h : off + len ≤ b.length) :
    ((b.drop off).take len).length = len := by simp; omega

/-- what one accepted instruction does, exactly -/
theorem applyOne_sound (base : Bytes) (total : Nat) (out : Bytes) (cmd : UInt8) (d out' d' : Bytes)
    (h : applyOne base total out cmd d = .ok (out', d')) :
    ∃ i ops x, cmd :: d = (cmd :: ops) ++ d' ∧ Encodes i (cmd :: ops) ∧ i.eval base = some x ∧ out' = out ++ x := by
  unfold applyOne at h
  split at h
  · rename_i h7
    have h7 : bit cmd 7 = true := (bits cmd).2.2.2.2.2.2.2.1 h7
    cases e : copyArgs cmd d with
    | err e' => simp [e] at h
    | ub => simp [e] at h
    | ok x =>
      obtain ⟨off, len, d2⟩ := x
      simp only [e, Res.bind_ok] at h
      split at h
      · simp at h
      · rename_i hb
        have hb' : off + len ≤ base.length := by omega
        rw [slice_ok _ _ _ hb'] at h
        simp only [Res.bind_ok] at h
        split at h
        · simp at h
        · simp only [Res.ok.injEq, Prod.mk.injEq] at h
          obtain ⟨ops, g1, g2⟩ := copyArgs_sound cmd d off len d2 h7 e
          refine ⟨.copy off len, ops, _, ?_, g2, ?_, h.1.symm⟩
          · rw [g1, h.2]; rfl
          · simp [Instr.eval, hb']
  · split at h
    · rename_i h7 h0
      split at h
      · simp at h
      · rename_i hb
        rw [slice_ok _ _ _ (by omega)] at h
        simp only [Res.bind_ok] at h
        split at h
        · simp at h
        · simp only [Res.ok.injEq, Prod.mk.injEq, List.drop_zero] at h
          have hlt : cmd.toNat < 128 := by
            have : ∀ c : UInt8, ¬ (c &&& 0x80 ≠ 0) → c.toNat < 128 := by decide +kernel
            exact this cmd h7
          have hpos : 0 < cmd.toNat := by
            have : ∀ c : UInt8, c ≠ 0 → 0 < c.toNat := by decide +kernel
            exact this cmd h0
          have hlen : (d.take cmd.toNat).length = cmd.toNat := by simp; omega
          refine ⟨.insert (d.take cmd.toNat), d.take cmd.toNat, _, ?_, ⟨by omega, by omega, ?_⟩, rfl, h.1.symm⟩
          · rw [← h.2]; simp
          · rw [hlen]; simp
    · simp at h

theorem applyOne_complete (base : Bytes) (total : Nat) (out : Bytes) (i : Instr) (bs rest x : Bytes)
    (he : Encodes i bs) (hx : i.eval base = some x) (hfit : out.length + x.length ≤ total) :
    ∃ c ops, bs = c :: ops ∧ applyOne base total out c (ops ++ rest) = .ok (out ++ x, rest) := by
  cases i with
  | copy off len =>
    obtain ⟨c, ops, h1, h2, h3⟩ := copyArgs_complete off len bs rest he
    refine ⟨c, ops, h1, ?_⟩
    unfold applyOne
    rw [if_pos ((bits c).2.2.2.2.2.2.2.2 h2), h3]
    simp only [Instr.eval] at hx
    split at hx
    · rename_i hb
      simp only [Option.some.injEq] at hx
      have hlen := length_slice base off len hb
      obtain ⟨_, v0, v1, v2, v3, v4, v5, v6, _, _, _, _, _, _, _, _, _, ho, hl⟩ := he
      have b0 := v0.toNat_lt; have b1 := v1.toNat_lt; have b2 := v2.toNat_lt; have b3 := v3.toNat_lt
      have b4 := v4.toNat_lt; have b5 := v5.toNat_lt; have b6 := v6.toNat_lt
      have hl' : len ≤ 2 ^ 24 := by simp only at hl; split at hl <;> omega
      rw [← hx, hlen] at hfit
      simp only [Res.bind_ok]
      rw [if_neg (by omega), slice_ok _ _ _ hb]
      simp only [Res.bind_ok]
      rw [if_neg (by rw [hlen]; omega), hx]
    · simp at hx
  | insert lit =>
    obtain ⟨h1, h2, h3⟩ := he
    refine ⟨_, _, h3, ?_⟩
    simp only [Instr.eval, Option.some.injEq] at hx
    subst hx
    have hc : (UInt8.ofNat lit.length).toNat = lit.length := by simp; omega
    unfold applyOne
    have n7 : ¬ (UInt8.ofNat lit.length &&& 0x80 ≠ 0) := by
      have : ∀ c : UInt8, c.toNat < 128 → ¬ (c &&& 0x80 ≠ 0) := by decide +kernel
      exact this _ (by omega)
    have n0 : UInt8.ofNat lit.length ≠ 0 := by
      intro h
      have := congrArg UInt8.toNat h
      rw [hc] at this
      simp at this
      simp [this] at h1
    rw [if_neg n7, if_pos n0, hc, if_neg (by simp; omega), slice_ok _ _ _ (by simp)]
    simp only [Res.bind_ok, List.drop_zero, List.take_left', List.drop_left']
    rw [if_neg (by omega)]

theorem applyOne_no_ub (base : Bytes) (total : Nat) (out : Bytes) (cmd : UInt8) (d : Bytes) (h : out.length ≤ total) :
    applyOne base total out cmd d ≠ .ub := by
  unfold applyOne
  split
  · cases e : copyArgs cmd d with
    | err e' => simp
    | ub => exact absurd e (copyArgs_no_ub _ _)
    | ok x =>
      obtain ⟨off, len, d2⟩ := x
      simp only [Res.bind_ok]
      split
      · simp
      · rename_i hb
        have hb' : off + len ≤ base.length := by omega
        rw [slice_ok _ _ _ hb']
        simp only [Res.bind_ok]
        rw [if_neg]
        · simp
        · rw [length_slice _ _ _ hb']; omega
  · split
    · split
      · simp
      · rename_i hb
        rw [slice_ok _ _ _ (by omega)]
        simp only [Res.bind_ok]
        rw [if_neg]
        · simp
        · rw [length_slice _ _ _ (by omega)]; omega
    · simp

theorem applyOne_len (base : Bytes) (total : Nat) (out : Bytes) (cmd : UInt8) (d out' d' : Bytes)
    (_ : out.length ≤ total) (h : applyOne base total out cmd d = .ok (out', d')) :
    d'.length ≤ d.length ∧ out'.length ≤ total := by
  obtain ⟨i, ops, x, h1, _⟩ := applyOne_sound base total out cmd d out' d' h
  constructor
  · have := congrArg List.length h1
    simp at this; omega
  · unfold applyOne at h
    split at h
    · cases e : copyArgs cmd d with
      | err e' => simp [e] at h
      | ub => simp [e] at h
      | ok x =>
        obtain ⟨off, len, d2⟩ := x
        simp only [e, Res.bind_ok] at h
        split at h
        · simp at h
        · rename_i hb
          rw [slice_ok _ _ _ (by omega)] at h
          simp only [Res.bind_ok] at h
          split at h
          · simp at h
          · simp only [Res.ok.injEq, Prod.mk.injEq] at h
            rw [← h.1]; simp at *; omega
    · split at h
      · split at h
        · simp at h
        · rw [slice_ok _ _ _ (by omega)] at h
          simp only [Res.bind_ok] at h
          split at h
          · simp at h
          · simp only [Res.ok.injEq, Prod.mk.injEq] at h
            rw [← h.1]; simp at *; omega
      · simp at h

theorem applyLoop_no_ub (base : Bytes) (total fuel : Nat) (out d : Bytes) (hl : out.length ≤ total) (hf : d.length ≤ fuel) :
    applyLoop base total fuel out d ≠ .ub := by
  induction fuel generalizing out d with
  | zero =>
    have := List.length_eq_zero_iff.mp (Nat.le_zero.mp hf)
    subst this
    rw [applyLoop]; split <;> simp
  | succ n ih =>
    cases d with
    | nil => rw [applyLoop]; split <;> simp
    | cons c d =>
      rw [applyLoop]
      cases e : applyOne base total out c d with
      | err e' => simp
      | ub => exact absurd e (applyOne_no_ub _ _ _ _ _ hl)
      | ok x =>
        obtain ⟨out', d'⟩ := x
        have := applyOne_len _ _ _ _ _ _ _ hl e
        simp only
        apply ih
        · exact this.2
        · simp at hf; omega

theorem applyLoop_sound (base : Bytes) (total fuel : Nat) (out d r : Bytes)
    (h : applyLoop base total fuel out d = .ok r) :
    r.length = total ∧ ∃ is x, EncodesAll is d ∧ evalAll base is = some x ∧ r = out ++ x := by
  induction fuel generalizing out d with
  | zero =>
    cases d with
    | nil =>
      rw [applyLoop] at h
      split at h
      · simp at h; exact ⟨by rw [← h]; assumption, [], [], .nil, rfl, by simp [h]⟩
      · simp at h
    | cons c d => simp [applyLoop] at h
  | succ n ih =>
    cases d with
    | nil =>
      rw [applyLoop] at h
      split at h
      · simp at h; exact ⟨by rw [← h]; assumption, [], [], .nil, rfl, by simp [h]⟩
      · simp at h
    | cons c d =>
      rw [applyLoop] at h
      cases e : applyOne base total out c d with
      | err e' => simp [e] at h
      | ub => simp [e] at h
      | ok y =>
        obtain ⟨out', d'⟩ := y
        simp only [e] at h
        obtain ⟨h1, is, x, h2, h3, h4⟩ := ih out' d' h
        obtain ⟨i, ops, x', g1, g2, g3, g4⟩ := applyOne_sound _ _ _ _ _ _ _ e
        refine ⟨h1, i :: is, x' ++ x, ?_, ?_, ?_⟩
        · rw [g1]; exact .cons g2 h2
        · simp [evalAll, g3, h3]
        · rw [h4, g4]; simp

theorem applyLoop_complete (base : Bytes) (total : Nat) (is : List Instr) (d : Bytes) (he : EncodesAll is d) :
    ∀ (fuel : Nat) (out x : Bytes), evalAll base is = some x → out.length + x.length = total → d.length ≤ fuel →
      applyLoop base total fuel out d = .ok (out ++ x) := by
  induction he with
  | nil =>
    intro fuel out x hx hl _
    simp [evalAll] at hx
    subst hx
    simp at hl
    cases fuel <;> simp [applyLoop, hl]
  | cons hi his ih =>
    rename_i i is a b
    intro fuel out x hx hl hf
    simp only [evalAll] at hx
    cases e1 : i.eval base with
    | none => simp [e1] at hx
    | some y =>
      cases e2 : evalAll base is with
      | none => simp [e1, e2] at hx
      | some z =>
        simp [e1, e2] at hx
        subst hx
        simp at hl hf
        obtain ⟨c, ops, g1, g2⟩ := applyOne_complete base total out i a b y hi e1 (by omega)
        subst g1
        cases fuel with
        | zero => simp at hf
        | succ n =>
          simp only [List.cons_append, applyLoop, g2]
          rw [ih n (out ++ y) z e2 (by simp; omega) (by simp at hf; omega)]
          simp

/-! ### composing encoded instruction streams -/
theorem EncodesAll.append {is js : List Instr} {a b : Bytes} (h1 : EncodesAll is a) (h2 : EncodesAll js b) :
    EncodesAll (is ++ js) (a ++ b) := by
  induction h1 with
  | nil => simpa
  | cons hi _ ih => rw [List.cons_append, List.append_assoc]; exact .cons hi ih

theorem EncodesAll.single {i : Instr} {a : Bytes} (h : Encodes i a) : EncodesAll [i] a := by
  have := EncodesAll.cons h .nil
  simpa using this

theorem evalAll_append (base : Bytes) (is js : List Instr) (x y : Bytes)
    (h1 : evalAll base is = some x) (h2 : evalAll base js = some y) : evalAll base (is ++ js) = some (x ++ y) := by
  induction is generalizing x with
  | nil => simp [evalAll] at h1; subst h1; simpa using h2
  | cons i is ih =>
    simp only [evalAll] at h1
    cases e1 : i.eval base with
    | none => simp [e1] at h1
    | some u =>
      cases e2 : evalAll base is with
      | none => simp [e1, e2] at h1
      | some v =>
        simp [e1, e2] at h1
        subst h1
        simp [evalAll, e1, ih v e2]

end Verif.Delta
