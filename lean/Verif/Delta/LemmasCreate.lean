import Verif.Delta.LemmasApply
namespace Verif.Delta
open Spec

/-! ### header -/
theorem hdrBytes_enc (n : Nat) : EncodesSize n (hdrBytes n) := by
  induction n using Nat.strongRecOn with
  | _ n ih =>
    rw [hdrBytes]
    split
    · rename_i h
      have hc : (UInt8.ofNat (n % 128 + 128)).toNat = n % 128 + 128 := by simp; omega
      have := EncodesSize.more (UInt8.ofNat (n % 128 + 128)) (by omega) (ih (n / 128) (by omega))
      rw [hc] at this
      have e : (n % 128 + 128) % 128 + 128 * (n / 128) = n := by omega
      rwa [e] at this
    · have hc : (UInt8.ofNat n).toNat = n := by simp; omega
      have := EncodesSize.last (UInt8.ofNat n) (by omega)
      rwa [hc] at this

theorem hdrBytes_len (n k : Nat) (h : n < 128 ^ (k + 1)) : (hdrBytes n).length ≤ k + 1 := by
  induction k generalizing n with
  | zero => rw [hdrBytes, dif_neg (by omega)]; simp
  | succ k ih =>
    rw [hdrBytes]
    split
    · have := ih (n / 128) (by
        rw [Nat.div_lt_iff_lt_mul (by decide)]; rwa [Nat.pow_succ] at h)
      simp; omega
    · simp

theorem hdrBytes_read (n : Nat) (rest : Bytes) (h : n < 2 ^ 32) : hdrSz 0 0 (hdrBytes n ++ rest) = .ok (n, rest) := by
  have h5 := hdrBytes_len n 4 (by omega)
  have := hdrSz_complete n (hdrBytes n) rest (hdrBytes_enc n) 0 0 (by omega) (by decide) (by decide)
  simpa [Nat.mod_eq_of_lt h] using this

/-! ### copy op-codes -/
theorem opbits (o0 o1 o2 o3 s0 s1 : Bool) :
    let c := UInt8.ofNat (0x80 + (if o0 then 1 else 0) + (if o1 then 2 else 0) + (if o2 then 4 else 0) +
      (if o3 then 8 else 0) + (if s0 then 16 else 0) + (if s1 then 32 else 0))
    bit c 7 = true ∧ bit c 0 = o0 ∧ bit c 1 = o1 ∧ bit c 2 = o2 ∧ bit c 3 = o3 ∧ bit c 4 = s0 ∧ bit c 5 = s1 ∧ bit c 6 = false := by
  revert o0 o1 o2 o3 s0 s1
  decide +kernel

theorem byteOf_toNat (x k : Nat) : (byteOf x k).toNat = x / 256 ^ k % 256 := by simp [byteOf]

theorem copyOp_enc (moff msize : Nat) (h1 : moff < 2 ^ 32) (h2 : 0 < msize) (h3 : msize ≤ 0x10000) :
    Encodes (.copy moff msize) (copyOp moff msize) := by
  have := opbits (byteOf moff 0 ≠ 0) (byteOf moff 1 ≠ 0) (byteOf moff 2 ≠ 0) (byteOf moff 3 ≠ 0)
    (byteOf msize 0 ≠ 0) (byteOf msize 1 ≠ 0)
  simp only at this
  obtain ⟨q7, q0, q1, q2, q3, q4, q5, q6⟩ := this
  refine ⟨_, byteOf moff 0, byteOf moff 1, byteOf moff 2, byteOf moff 3, byteOf msize 0, byteOf msize 1, 0,
    q7, ?_, ?_, ?_, ?_, ?_, ?_, ?_, ?_, ?_, ?_⟩
  · rw [q0]; simp
  · rw [q1]; simp
  · rw [q2]; simp
  · rw [q3]; simp
  · rw [q4]; simp
  · rw [q5]; simp
  · simp
  · rw [q0, q1, q2, q3, q4, q5, q6]
    simp [copyOp, opt]
  · simp only [byteOf_toNat]; omega
  · simp only [byteOf_toNat]
    simp
    split <;> omega

theorem copyOp_len (moff msize : Nat) : (copyOp moff msize).length ≤ 7 := by
  unfold copyOp
  simp only
  have : ∀ (c : Bool) (b : UInt8), (if c then [b] else []).length ≤ 1 := by intro c b; cases c <;> simp
  simp only [List.length_cons, List.length_append]
  have t1 := this (byteOf moff 0 ≠ 0) (byteOf moff 0)
  have t2 := this (byteOf moff 1 ≠ 0) (byteOf moff 1)
  have t3 := this (byteOf moff 2 ≠ 0) (byteOf moff 2)
  have t4 := this (byteOf moff 3 ≠ 0) (byteOf moff 3)
  have t5 := this (byteOf msize 0 ≠ 0) (byteOf msize 0)
  have t6 := this (byteOf msize 1 ≠ 0) (byteOf msize 1)
  omega

/-! ### the rolling hash never leaves its tables -/
theorem T_len : T.length = 256 := by decide +kernel
theorem U_len : U.length = 256 := by decide +kernel
theorem T_top : ∀ k : Fin 256, (T.getD k.val 0).toNat.testBit 31 = k.val.testBit 0 := by decide +kernel
theorem U_small : ∀ k : Fin 256, (U.getD k.val 0).toNat < 2 ^ 31 := by decide +kernel

theorem roll_ok (val : UInt32) (c : UInt8) (h : val.toNat < 2 ^ 31) :
    ∃ v, roll val c = .ok v ∧ v.toNat < 2 ^ 31 := by
  unfold roll
  have hk : (val >>> RABIN_SHIFT).toNat = val.toNat / 2 ^ 23 := by
    simp [RABIN_SHIFT, UInt32.toNat_shiftRight, Nat.shiftRight_eq_div_pow]
  have hk2 : (val >>> RABIN_SHIFT).toNat < 256 := by rw [hk]; omega
  have hlt : (val >>> RABIN_SHIFT).toNat < T.length := by rw [T_len]; exact hk2
  rw [List.getElem?_eq_getElem hlt]
  refine ⟨_, rfl, ?_⟩
  have ht := T_top ⟨_, hk2⟩
  simp only [List.getD_eq_getElem?_getD, List.getElem?_eq_getElem hlt, Option.getD_some] at ht
  apply Nat.lt_pow_two_of_testBit
  intro i hi
  by_cases h32 : 32 ≤ i
  · apply Nat.testBit_lt_two_pow
    exact Nat.lt_of_lt_of_le (UInt32.toNat_lt _) (Nat.pow_le_pow_right (by decide) h32)
  · have : i = 31 := by omega
    subst this
    simp only [UInt32.toNat_xor, UInt32.toNat_or, Nat.testBit_xor, Nat.testBit_or, ht, UInt32.toNat_shiftLeft]
    have e1 : (val.toNat <<< ((8 : UInt32).toNat % 32) % 2 ^ 32).testBit 31 = val.toNat.testBit 23 := by
      rw [Nat.testBit_mod_two_pow]
      simp [Nat.testBit_shiftLeft]
    rw [e1]
    have e2 : (c.toUInt32.toNat).testBit 31 = false := by
      apply Nat.testBit_lt_two_pow
      have := c.toNat_lt
      simp; omega
    rw [e2]
    have e3 : (val >>> RABIN_SHIFT).toNat.testBit 0 = val.toNat.testBit 23 := by
      rw [hk, Nat.testBit_div_two_pow]
    rw [e3]; simp

theorem rollAll_ok (val : UInt32) (bs : Bytes) (h : val.toNat < 2 ^ 31) :
    ∃ v, rollAll val bs = .ok v ∧ v.toNat < 2 ^ 31 := by
  induction bs generalizing val with
  | nil => exact ⟨val, rfl, h⟩
  | cons c cs ih =>
    obtain ⟨v, h1, h2⟩ := roll_ok val c h
    rw [rollAll, h1]
    exact ih v h2

theorem xor_lt (a b : UInt32) (ha : a.toNat < 2 ^ 31) (hb : b.toNat < 2 ^ 31) : (a ^^^ b).toNat < 2 ^ 31 := by
  rw [UInt32.toNat_xor]; exact Nat.xor_lt_two_pow ha hb

/-! ### building the index -/
structure PopInv (buf : Bytes) (hmask : UInt32) (p : Pop) : Prop where
  ptrs : ∀ i, ∀ e ∈ p.hash i, e.ptr ≤ buf.length
  none_ : p.any = false → p.prev = 0xffffffff
  some_ : p.any = true → p.hash (p.prev &&& hmask).toNat ≠ []

theorem populate_ok (buf : Bytes) (hmask : UInt32) (k : Nat) (p : Pop) (hp : PopInv buf hmask p)
    (hk : k * RABIN_WINDOW + 1 ≤ buf.length ∨ k = 0) :
    ∃ q, populate buf hmask k p = .ok q ∧ PopInv buf hmask q := by
  induction k generalizing p with
  | zero => exact ⟨p, rfl, hp⟩
  | succ k ih =>
    have hk' : (k + 1) * 16 + 1 ≤ buf.length := by
      rcases hk with h | h
      · exact h
      · omega
    rw [populate, popStep]
    simp only [RABIN_WINDOW] at *
    rw [slice_ok _ _ _ (by omega)]
    obtain ⟨v, h1, h2⟩ := rollAll_ok 0 ((buf.drop (k * 16 + 1)).take 16) (by decide)
    simp only [Res.bind_ok, h1]
    have hrec : ∀ p', PopInv buf hmask p' → ∃ q, populate buf hmask k p' = .ok q ∧ PopInv buf hmask q := fun p' hp' =>
      ih p' hp' (by omega)
    by_cases he : v = p.prev
    · have ha : p.any = true := by
        cases hany : p.any with
        | true => rfl
        | false =>
          have := hp.none_ hany
          rw [he, this] at h2
          exact absurd h2 (by decide)
      simp only [he, if_true, ha]
      have hne := hp.some_ ha
      cases hh : p.hash (p.prev &&& hmask).toNat with
      | nil => exact absurd hh hne
      | cons e es =>
        simp only
        apply hrec
        refine ⟨?_, ?_, ?_⟩
        · intro i e' he'
          simp only at he'
          split at he'
          · rcases List.mem_cons.mp he' with h | h
            · rw [h]; simp; omega
            · exact hp.ptrs (p.prev &&& hmask).toNat e' (by rw [hh]; exact List.mem_cons_of_mem _ h)
          · exact hp.ptrs i e' he'
        · simp [ha]
        · simp
    · simp only [he, if_false]
      apply hrec
      refine ⟨?_, by simp, ?_⟩
      · intro i e' he'
        simp only at he'
        split at he'
        · rcases List.mem_cons.mp he' with h | h
          · rw [h]; simp; omega
          · exact hp.ptrs _ e' h
        · exact hp.ptrs i e' he'
      · simp

theorem cullSkip_subset (skip : Int) (es : List Entry) : ∀ e ∈ cullSkip skip es, e ∈ es := by
  induction es generalizing skip with
  | nil => simp [cullSkip]
  | cons x xs ih =>
    intro e he
    rw [cullSkip] at he
    split at he
    · exact List.mem_cons_of_mem _ he
    · exact List.mem_cons_of_mem _ (ih _ e he)

theorem cull_subset (skip : Int) (fuel : Nat) (es : List Entry) : ∀ e ∈ cull skip fuel es, e ∈ es := by
  induction fuel generalizing es with
  | zero => intro e he; simpa [cull] using he
  | succ n ih =>
    intro e he
    match es with
    | [] => simp [cull] at he
    | [k] => simpa [cull] using he
    | k :: r :: rs =>
      simp only [cull, List.mem_cons] at he
      rcases he with h | h
      · simp [h]
      · have := ih _ e h
        split at this
        · exact List.mem_cons_of_mem _ this
        · exact List.mem_cons_of_mem _ (cullSkip_subset _ _ e this)

/-- building the index never goes out of bounds, and every entry points into the buffer -/
theorem indexInit_ok (buf : Bytes) (h : buf ≠ []) :
    ∃ ix, indexInit buf = .ok (some ix) ∧ ix.src = buf ∧ ∀ i, ∀ e ∈ ix.hash i, e.ptr ≤ buf.length := by
  unfold indexInit
  have hpos : 0 < buf.length := List.length_pos_iff.mpr h
  rw [if_neg (by omega)]
  simp only
  have hk : numEntries buf.length * RABIN_WINDOW + 1 ≤ buf.length ∨ numEntries buf.length = 0 := by
    left
    unfold numEntries RABIN_WINDOW
    split <;> omega
  obtain ⟨q, h1, h2⟩ := populate_ok buf (UInt32.ofNat (2 ^ hashBits (numEntries buf.length / 4) 27 4 - 1))
    (numEntries buf.length) { hash := fun _ => [], count := fun _ => 0, prev := 0xffffffff, any := false }
    ⟨by simp, by simp, by simp⟩ hk
  rw [h1]
  refine ⟨_, rfl, rfl, ?_⟩
  intro i e he
  simp only at he
  split at he
  · exact h2.ptrs i e he
  · exact h2.ptrs i e (cull_subset _ _ _ e he)

/-! ### matches -/

/-- the candidate `(moff, msize)` really is a match at position `data` -/
structure Match (ref trg : Bytes) (data moff msize : Nat) : Prop where
  inRef : moff + msize ≤ ref.length
  inTrg : data + msize ≤ trg.length
  same : (ref.drop moff).take msize = (trg.drop data).take msize

theorem matchLen_spec (n : Nat) (a b : Bytes) :
    matchLen n a b ≤ a.length ∧ matchLen n a b ≤ b.length ∧ b.take (matchLen n a b) = a.take (matchLen n a b) := by
  induction n generalizing a b with
  | zero => simp [matchLen]
  | succ n ih =>
    match a, b with
    | [], _ => simp [matchLen]
    | _ :: _, [] => simp [matchLen]
    | x :: xs, y :: ys =>
      simp only [matchLen]
      by_cases h : x = y
      · obtain ⟨h1, h2, h3⟩ := ih xs ys
        simp [h, h1, h2, h3]
      · simp [h]

theorem scan_ok (ref trg : Bytes) (data : Nat) (val : UInt32) (es : List Entry) (moff msize : Nat)
    (hes : ∀ e ∈ es, e.ptr ≤ ref.length) (hd : data ≤ trg.length) (h : Match ref trg data moff msize) :
    Match ref trg data (scan ref trg data val es moff msize).1 (scan ref trg data val es moff msize).2 := by
  induction es generalizing moff msize with
  | nil => exact h
  | cons e es ih =>
    have hes' : ∀ e ∈ es, e.ptr ≤ ref.length := fun e' he' => hes e' (List.mem_cons_of_mem _ he')
    rw [scan]
    simp only
    by_cases h1 : e.val ≠ val
    · rw [if_pos h1]; exact ih moff msize hes' h
    · rw [if_neg h1]
      generalize (if trg.length - data < ref.length - e.ptr then trg.length - data else ref.length - e.ptr) = rs
      by_cases h2 : rs ≤ msize
      · rw [if_pos h2]; exact h
      · rw [if_neg h2]
        by_cases h3 : msize < matchLen rs (trg.drop data) (ref.drop e.ptr)
        · rw [if_pos h3]
          have hm := matchLen_spec rs (trg.drop data) (ref.drop e.ptr)
          have hp := hes e (by simp)
          have hnew : Match ref trg data e.ptr (matchLen rs (trg.drop data) (ref.drop e.ptr)) := by
            refine ⟨?_, ?_, hm.2.2⟩
            · have := hm.2.1; simp at this; omega
            · have := hm.1; simp at this; omega
          split
          · exact hnew
          · exact ih _ _ hes' hnew
        · rw [if_neg h3]; exact ih moff msize hes' h

end Verif.Delta
