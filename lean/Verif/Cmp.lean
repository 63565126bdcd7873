import Verif.Base
/-! # Byte-wise comparison

`bcmp` is the three-way comparison that `memcmp` (on equally long buffers) and `strcmp` (on strings without NUL) compute.
C only specifies the sign of the result; the model returns -1, 0 or 1. -/
namespace Verif

/-- `strcmp` for strings given without their terminating NUL (and containing none); `memcmp` on buffers of equal length. -/
def bcmp : Bytes → Bytes → Int
  | [], [] => 0
  | [], _ :: _ => -1
  | _ :: _, [] => 1
  | a :: as, b :: bs => if a < b then -1 else if b < a then 1 else bcmp as bs

theorem bcmp_range (a b : Bytes) : bcmp a b = -1 ∨ bcmp a b = 0 ∨ bcmp a b = 1 := by
  induction a generalizing b with
  | nil => cases b <;> simp [bcmp]
  | cons x xs ih =>
    cases b with
    | nil => simp [bcmp]
    | cons y ys =>
      simp only [bcmp]
      split
      · simp
      · split
        · simp
        · exact ih ys

theorem bcmp_self (a : Bytes) : bcmp a a = 0 := by
  induction a with
  | nil => rfl
  | cons x xs ih => simp [bcmp, ih, UInt8.lt_irrefl]

theorem bcmp_zero {a b : Bytes} : bcmp a b = 0 ↔ a = b := by
  constructor
  · induction a generalizing b with
    | nil => cases b <;> simp [bcmp]
    | cons x xs ih =>
      cases b with
      | nil => simp [bcmp]
      | cons y ys =>
        simp only [bcmp]
        split
        · simp
        · split
          · simp
          · rename_i h1 h2
            intro h
            have : x = y := by
              apply UInt8.toNat_inj.mp
              simp only [UInt8.lt_iff_toNat_lt] at h1 h2
              omega
            rw [this, ih h]
  · rintro rfl; exact bcmp_self a

theorem bcmp_neg (a b : Bytes) : bcmp b a = - bcmp a b := by
  induction a generalizing b with
  | nil => cases b <;> simp [bcmp]
  | cons x xs ih =>
    cases b with
    | nil => simp [bcmp]
    | cons y ys =>
      simp only [bcmp]
      by_cases h1 : x < y
      · have : ¬ y < x := by simp only [UInt8.lt_iff_toNat_lt] at h1 ⊢; omega
        simp [h1, this]
      · by_cases h2 : y < x
        · simp [h1, h2]
        · simp [h1, h2, ih]

theorem bcmp_trans {a b c : Bytes} (h1 : bcmp a b ≤ 0) (h2 : bcmp b c ≤ 0) : bcmp a c ≤ 0 := by
  induction a generalizing b c with
  | nil => cases c <;> simp [bcmp]
  | cons x xs ih =>
    cases b with
    | nil => simp [bcmp] at h1
    | cons y ys =>
      cases c with
      | nil => simp [bcmp] at h2
      | cons z zs =>
        simp only [bcmp] at h1 h2 ⊢
        simp only [UInt8.lt_iff_toNat_lt] at h1 h2 ⊢
        split at h1
        · split at h2
          · rw [if_pos (by omega)]; omega
          · split at h2
            · omega
            · rw [if_pos (by omega)]; omega
        · split at h1
          · omega
          · split at h2
            · rw [if_pos (by omega)]; omega
            · split at h2
              · omega
              · rw [if_neg (by omega), if_neg (by omega)]; exact ih h1 h2

/-- the comparison of prefixes agrees with the comparison of the strings, except that it may be undecided -/
theorem bcmp_take {a b : Bytes} (m : Nat) (h : bcmp a b ≤ 0) : bcmp (a.take m) (b.take m) ≤ 0 := by
  induction m generalizing a b with
  | zero => simp [bcmp]
  | succ m ih =>
    cases a with
    | nil => cases b <;> simp [bcmp]
    | cons x xs =>
      cases b with
      | nil => simp [bcmp] at h
      | cons y ys =>
        simp only [List.take_succ_cons, bcmp] at h ⊢
        split at h
        · rename_i h1; rw [if_pos h1]; omega
        · split at h
          · omega
          · rename_i h1 h2; rw [if_neg h1, if_neg h2]; exact ih h

theorem bcmp_append_left (p a b : Bytes) : bcmp (p ++ a) (p ++ b) = bcmp a b := by
  induction p with
  | nil => rfl
  | cons x xs ih => simp [bcmp, ih, UInt8.lt_irrefl]

/-- the lexicographic order on byte strings, as the standard library defines it -/
theorem bcmp_lt {a b : Bytes} : bcmp a b < 0 ↔ a < b := by
  induction a generalizing b with
  | nil => cases b <;> simp [bcmp]
  | cons x xs ih =>
    cases b with
    | nil => simp [bcmp]
    | cons y ys =>
      simp only [bcmp, List.cons_lt_cons_iff]
      split
      · rename_i h; simp [h]
      · split
        · rename_i h1 h2
          constructor
          · intro h; simp at h
          · rintro (h | ⟨rfl, _⟩)
            · exact absurd h h1
            · exact absurd h2 (UInt8.lt_irrefl _)
        · rename_i h1 h2
          have : x = y := by
            apply UInt8.toNat_inj.mp
            simp only [UInt8.lt_iff_toNat_lt] at h1 h2
            omega
          subst this
          rw [ih]; simp [h1]

theorem bcmp_le {a b : Bytes} : bcmp a b ≤ 0 ↔ a ≤ b := by
  have h := bcmp_neg a b
  have : ¬ (bcmp b a < 0) ↔ a ≤ b := by rw [bcmp_lt]; exact List.not_lt
  rw [← this, h]; omega

namespace B

theorem le_rfl {a : Bytes} : a ≤ a := bcmp_le.mp (by rw [bcmp_self]; decide)

theorem le_of_lt {a b : Bytes} (h : a < b) : a ≤ b := bcmp_le.mp (by have := bcmp_lt.mpr h; omega)

theorem ne_of_lt {a b : Bytes} (h : a < b) : a ≠ b := by
  rintro rfl
  have := bcmp_lt.mpr h
  rw [bcmp_self] at this; omega

theorem le_trans {a b c : Bytes} (h1 : a ≤ b) (h2 : b ≤ c) : a ≤ c := bcmp_le.mp (bcmp_trans (bcmp_le.mpr h1) (bcmp_le.mpr h2))

theorem le_antisymm {a b : Bytes} (h1 : a ≤ b) (h2 : b ≤ a) : a = b := by
  have h1 := bcmp_le.mpr h1
  have h2 := bcmp_le.mpr h2
  rw [bcmp_neg] at h2
  exact bcmp_zero.mp (by omega)

theorem lt_of_le_of_ne {a b : Bytes} (h1 : a ≤ b) (h2 : a ≠ b) : a < b := by
  have h1 := bcmp_le.mpr h1
  apply bcmp_lt.mp
  have : bcmp a b ≠ 0 := fun h => h2 (bcmp_zero.mp h)
  omega

theorem lt_of_le_of_lt {a b c : Bytes} (h1 : a ≤ b) (h2 : b < c) : a < c :=
  lt_of_le_of_ne (le_trans h1 (le_of_lt h2)) (by
    rintro rfl
    exact ne_of_lt h2 (le_antisymm (le_of_lt h2) h1))

theorem lt_of_lt_of_le {a b c : Bytes} (h1 : a < b) (h2 : b ≤ c) : a < c :=
  lt_of_le_of_ne (le_trans (le_of_lt h1) h2) (by
    rintro rfl
    exact ne_of_lt h1 (le_antisymm (le_of_lt h1) h2))

theorem not_le {a b : Bytes} : ¬ a ≤ b ↔ b < a := by
  rw [← bcmp_le, ← bcmp_lt, bcmp_neg a b]; omega

theorem not_lt {a b : Bytes} : ¬ a < b ↔ b ≤ a := by
  rw [← bcmp_le, ← bcmp_lt, bcmp_neg a b]; omega

end B

end Verif
