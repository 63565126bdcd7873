import Verif.Varint.Model
import Verif.Varint.Spec
namespace Verif.Varint
open Spec

theorem and127 : ∀ c : UInt8, (c &&& 127).toNat = c.toNat % 128 := by decide +kernel
theorem and128 : ∀ c : UInt8, (c &&& 128 = 0) ↔ c.toNat < 128 := by decide +kernel

/-- left-to-right reading used by the decoder -/
def dec (v : Nat) : Bytes → Nat
  | [] => v
  | c :: cs => dec ((v + 1) * 128 + c.toNat % 128) cs

theorem dec_eq (v : Nat) (bs : Bytes) :
    dec v bs = v * 128 ^ bs.length + digits bs + bias bs.length := by
  induction bs generalizing v with
  | nil => simp [dec, digits, bias]
  | cons c cs ih =>
    simp only [dec, ih, digits, List.length_cons, bias, Nat.pow_succ]
    have : ((v + 1) * 128 + c.toNat % 128) * 128 ^ cs.length
      = v * (128 ^ cs.length * 128) + 128 ^ cs.length * 128 + c.toNat % 128 * 128 ^ cs.length := by
      rw [Nat.add_mul, Nat.add_mul, Nat.add_mul, Nat.mul_comm (128 ^ cs.length) 128, Nat.mul_assoc, Nat.one_mul]
    omega

theorem value_cons (c : UInt8) (cs : Bytes) : value (c :: cs) = dec (c.toNat % 128) cs := by
  simp [value, digits, dec_eq]

theorem msb7_iff (x : UInt64) : msb7 x ≠ 0 ↔ 2 ^ 57 ≤ x.toNat := by
  unfold msb7
  rw [show (~~~(0:UInt64) <<< 57) = 0xfe00000000000000 by decide]
  rw [Ne, ← UInt64.toNat_inj]
  simp only [UInt64.toNat_and]
  have hx := x.toNat_lt
  constructor
  · intro h
    refine Nat.le_of_not_lt fun hlt => h ?_
    apply Nat.eq_of_testBit_eq
    intro i
    simp only [Nat.testBit_and]
    by_cases hi : i < 57
    · have : (UInt64.toNat 0xfe00000000000000).testBit i = false := by
        have : ∀ i : Fin 57, (UInt64.toNat 0xfe00000000000000).testBit i.val = false := by decide
        exact this ⟨i, hi⟩
      rw [this, Bool.and_false]; simp
    · have : x.toNat.testBit i = false := by
        apply Nat.testBit_lt_two_pow
        exact Nat.lt_of_lt_of_le hlt (Nat.pow_le_pow_right (by decide) (by omega))
      simp [this]
  · intro h h0
    have hd : x.toNat / 2 ^ 57 ≠ 0 := by
      have := Nat.div_le_div_right (c := 2^57) h
      intro h1
      rw [h1] at this
      simp at this
    have h2 : (x.toNat &&& UInt64.toNat 0xfe00000000000000) / 2 ^ 57 = x.toNat / 2^57 := by
      rw [← Nat.shiftRight_eq_div_pow, ← Nat.shiftRight_eq_div_pow, Nat.shiftRight_and_distrib]
      rw [show UInt64.toNat 0xfe00000000000000 >>> 57 = 2^7 - 1 by decide]
      rw [Nat.and_two_pow_sub_one_eq_mod]
      apply Nat.mod_eq_of_lt
      rw [Nat.shiftRight_eq_div_pow]
      omega
    rw [h0] at h2
    simp at h2
    omega

theorem ge_dec (v : Nat) (bs : Bytes) : v ≤ dec v bs := by
  induction bs generalizing v with
  | nil => simp [dec]
  | cons c cs ih => rw [dec]; exact Nat.le_trans (by omega) (ih _)

/-- the tail `cs` of a varint whose first byte read so far was `c` -/
def Tail (c : UInt8) (cs : Bytes) : Prop := WellFormed (c :: cs)

theorem wf_cons_cons (c d : UInt8) (cs : Bytes) :
    WellFormed (c :: d :: cs) ↔ 128 ≤ c.toNat ∧ WellFormed (d :: cs) := Iff.rfl

theorem add1 (val : UInt64) : (val + 1 = 0 ∨ msb7 (val + 1) ≠ 0) ↔ 2 ^ 57 ≤ val.toNat + 1 := by
  rw [msb7_iff]
  have h := val.toNat_lt
  rw [← UInt64.toNat_inj]
  simp only [UInt64.toNat_add, UInt64.toNat_one, UInt64.toNat_zero]
  omega

theorem shl_add (val : UInt64) (c : UInt8) (h : val.toNat + 1 < 2 ^ 57) :
    (((val + 1) <<< 7) + (c &&& 127).toUInt64).toNat = (val.toNat + 1) * 128 + c.toNat % 128 := by
  simp only [UInt64.toNat_add, UInt64.toNat_shiftLeft, UInt64.toNat_one, UInt8.toNat_toUInt64, and127,
    Nat.shiftLeft_eq]
  simp
  omega

theorem decodeLoop_ok (cs sfx : Bytes) (c : UInt8) (val : UInt64) (n : Nat)
    (hw : WellFormed (c :: cs)) (hb : dec val.toNat cs < 2 ^ 64) :
    ∃ v : UInt64, decodeLoop val c n (cs ++ sfx) = .ok (v, n + cs.length) ∧ v.toNat = dec val.toNat cs := by
  induction cs generalizing c val n with
  | nil =>
    rw [decodeLoop.eq_def]
    simp only [WellFormed] at hw
    simp [(and128 c).2 hw, dec]
  | cons d ds ih =>
    rw [wf_cons_cons] at hw
    rw [decodeLoop.eq_def]
    have h0 : ¬ (c &&& 128 = 0) := by rw [and128]; omega
    rw [if_neg h0]
    have hge := ge_dec ((val.toNat + 1) * 128 + d.toNat % 128) ds
    rw [dec] at hb
    have h1 : ¬ (val + 1 = 0 ∨ msb7 (val + 1) ≠ 0) := by rw [add1]; omega
    have hlt : val.toNat + 1 < 2 ^ 57 := by omega
    simp only [if_neg h1, List.cons_append]
    have := ih d (((val + 1) <<< 7) + (d &&& 127).toUInt64) (n + 1) hw.2
      (by rw [shl_add _ _ hlt]; exact hb)
    obtain ⟨v, h2, h3⟩ := this
    refine ⟨v, ?_, ?_⟩
    · rw [h2]; simp; omega
    · rw [h3, shl_add _ _ hlt, dec]

theorem decodeLoop_err (cs sfx : Bytes) (c : UInt8) (val : UInt64) (n : Nat)
    (hw : WellFormed (c :: cs)) (hb : 2 ^ 64 ≤ dec val.toNat cs) :
    decodeLoop val c n (cs ++ sfx) = .err (-1) := by
  induction cs generalizing c val n with
  | nil =>
    have := val.toNat_lt
    simp [dec] at hb; omega
  | cons d ds ih =>
    rw [wf_cons_cons] at hw
    rw [decodeLoop.eq_def]
    have h0 : ¬ (c &&& 128 = 0) := by rw [and128]; omega
    rw [if_neg h0]
    by_cases h1 : (val + 1 = 0 ∨ msb7 (val + 1) ≠ 0)
    · simp [h1]
    · have hlt : val.toNat + 1 < 2 ^ 57 := by rw [add1] at h1; omega
      simp only [if_neg h1, List.cons_append]
      exact ih d _ _ hw.2 (by rw [shl_add _ _ hlt]; rw [dec] at hb; exact hb)

theorem decodeLoop_inv (rest : Bytes) (c : UInt8) (val : UInt64) (n : Nat) (v : UInt64) (m : Nat)
    (h : decodeLoop val c n rest = .ok (v, m)) :
    ∃ cs sfx, rest = cs ++ sfx ∧ m = n + cs.length ∧ WellFormed (c :: cs) ∧ v.toNat = dec val.toNat cs := by
  induction rest generalizing c val n with
  | nil =>
    rw [decodeLoop.eq_def] at h
    split at h
    · rename_i h0
      refine ⟨[], [], ?_⟩
      simp at h
      simp [h, WellFormed, (and128 c).1 h0, dec]
    · simp only at h
      split at h <;> simp at h
  | cons d ds ih =>
    rw [decodeLoop.eq_def] at h
    split at h
    · rename_i h0
      refine ⟨[], d :: ds, ?_⟩
      simp at h
      simp [h, WellFormed, (and128 c).1 h0, dec]
    · rename_i h0
      simp only at h
      split at h
      · simp at h
      · rename_i h1
        have hlt : val.toNat + 1 < 2 ^ 57 := by rw [add1] at h1; omega
        obtain ⟨cs, sfx, h2, h3, h4, h5⟩ := ih _ _ _ h
        refine ⟨d :: cs, sfx, by simp [h2], by simp [h3]; omega, ?_, ?_⟩
        · rw [wf_cons_cons]
          refine ⟨?_, h4⟩
          rw [and128] at h0; omega
        · rw [h5, shl_add _ _ hlt, dec]

/-- the decoder never looks at more than ten bytes -/
theorem decodeLoop_bound (rest : Bytes) (c : UInt8) (val : UInt64) (n k : Nat)
    (hk : 2 ^ 64 ≤ (val.toNat + 1) * 128 ^ k) (hl : k ≤ rest.length) :
    decodeLoop val c n rest ≠ .ub := by
  induction rest generalizing c val n k with
  | nil =>
    have := val.toNat_lt
    simp only [List.length_nil, Nat.le_zero] at hl
    subst hl
    rw [decodeLoop.eq_def]
    split
    · simp
    · have h1 : (val + 1 = 0 ∨ msb7 (val + 1) ≠ 0) := by rw [add1]; omega
      simp [h1]
  | cons d ds ih =>
    rw [decodeLoop.eq_def]
    split
    · simp
    · simp only
      split
      · simp
      · rename_i h1
        have hlt : val.toNat + 1 < 2 ^ 57 := by rw [add1] at h1; omega
        cases k with
        | zero => simp at hk; omega
        | succ k =>
          apply ih _ _ _ k
          · rw [shl_add _ _ hlt]
            refine Nat.le_trans hk ?_
            rw [Nat.pow_succ, Nat.mul_comm (128 ^ k), ← Nat.mul_assoc]
            apply Nat.mul_le_mul_right; omega
          · simpa using hl

theorem nz (value : UInt64) : (value >>> 7 = 0) ↔ value.toNat < 128 := by
  rw [← UInt64.toNat_inj]
  simp [UInt64.toNat_shiftRight, Nat.shiftRight_eq_div_pow]

theorem pred (value : UInt64) (h : ¬ (value >>> 7 = 0)) : (value >>> 7 - 1).toNat = value.toNat / 128 - 1 := by
  rw [nz] at h
  have h2 : (value >>> 7).toNat = value.toNat / 128 := by
    simp [UInt64.toNat_shiftRight, Nat.shiftRight_eq_div_pow]
  rw [UInt64.toNat_sub_of_le]
  · simp [h2]
  · rw [UInt64.le_iff_toNat_le, h2]; simp; omega

theorem low7 (x : UInt64) : (x &&& 127).toUInt8.toNat = x.toNat % 128 := by
  simp only [UInt64.toNat_toUInt8, UInt64.toNat_and]
  rw [show UInt64.toNat 127 = 2 ^ 7 - 1 by decide, Nat.and_two_pow_sub_one_eq_mod]
  omega

theorem high7 (x : UInt64) : (128 ||| x &&& 127).toUInt8.toNat = 128 + x.toNat % 128 := by
  simp only [UInt64.toNat_toUInt8, UInt64.toNat_and, UInt64.toNat_or]
  rw [show UInt64.toNat 127 = 2 ^ 7 - 1 by decide, Nat.and_two_pow_sub_one_eq_mod]
  rw [show UInt64.toNat 128 = 2 ^ 7 * 1 by decide, ← Nat.two_pow_add_eq_or_of_lt (by omega)]
  omega

/-- the encoder loop: its output is a well-formed varint with the right left-to-right value -/
theorem encodeLoop_spec (value : UInt64) (acc : Bytes) (d : UInt8)
    (hd : d.toNat % 128 = value.toNat % 128)
    (hw : WellFormed (d :: acc)) :
    ∃ c cs, encodeLoop value (d :: acc) = c :: cs ∧ WellFormed (c :: cs) ∧
      dec (c.toNat % 128) cs = dec value.toNat acc := by
  induction hn : value.toNat using Nat.strongRecOn generalizing value acc d with
  | _ n ih =>
    rw [encodeLoop]
    split
    · rename_i h0
      have h0 : value >>> 7 = 0 := h0
      rw [nz] at h0
      refine ⟨d, acc, rfl, hw, ?_⟩
      rw [hd, Nat.mod_eq_of_lt h0, hn]
    · rename_i h0
      have h0 : ¬ (value >>> 7 = 0) := h0
      have hp := pred value h0
      rw [nz] at h0
      obtain ⟨c, cs, h1, h2, h3⟩ := ih (value >>> 7 - 1).toNat (by omega) (value >>> 7 - 1) (d :: acc)
        ((128 : UInt64) ||| (value >>> 7 - 1) &&& 127).toUInt8 (by rw [high7]; omega)
        (by rw [wf_cons_cons, high7]; exact ⟨by omega, hw⟩) rfl
      refine ⟨c, cs, h1, h2, ?_⟩
      rw [h3, dec, hp, hd]
      congr 1
      omega

theorem encodeBytes_spec (value : UInt64) :
    ∃ c cs, encodeBytes value = c :: cs ∧ WellFormed (c :: cs) ∧ dec (c.toNat % 128) cs = value.toNat := by
  have h : (value &&& 127).toUInt8.toNat = value.toNat % 128 := low7 value
  obtain ⟨c, cs, h1, h2, h3⟩ := encodeLoop_spec value [] (value &&& 127).toUInt8
    (by omega) (by simp only [WellFormed]; omega)
  exact ⟨c, cs, h1, h2, h3⟩

theorem length_of_dec_lt (cs : Bytes) (v : Nat) (h : dec v cs < 2 ^ 64) : cs.length ≤ 9 := by
  refine Nat.le_of_not_lt fun hlt => ?_
  have := dec_eq v cs
  have h1 : 128 ^ 10 ≤ 128 ^ cs.length := Nat.pow_le_pow_right (by decide) hlt
  have h3 : 128 ^ cs.length ≤ bias cs.length := by
    cases hcs : cs.length with
    | zero => omega
    | succ m => simp [bias]
  omega

theorem low7' (c : UInt8) : (c &&& 127).toUInt64.toNat = c.toNat % 128 := by
  rw [UInt8.toNat_toUInt64, and127]

end Verif.Varint
