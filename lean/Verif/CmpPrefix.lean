import Verif.Cmp
/-! # Byte-string order and prefixes -/
namespace Verif.B

theorem lt_irrefl {a : Bytes} (h : a < a) : False := ne_of_lt h rfl
theorem lt_trans {a b c : Bytes} (h1 : a < b) (h2 : b < c) : a < c := lt_of_lt_of_le h1 (le_of_lt h2)

theorem prefix_le {a b : Bytes} (h : a <+: b) : a ≤ b := by
  obtain ⟨t, rfl⟩ := h
  refine bcmp_le.mp ?_
  have := bcmp_append_left a [] t
  rw [List.append_nil] at this
  rw [this]
  cases t <;> simp [bcmp]

theorem append_le_append_left (a : Bytes) {s t : Bytes} (h : s ≤ t) : a ++ s ≤ a ++ t := by
  refine bcmp_le.mp ?_
  rw [bcmp_append_left]
  exact bcmp_le.mpr h

/-- what is between a text and one of its extensions is an extension -/
theorem convex {a b t : Bytes} (h1 : a ≤ b) (h2 : b ≤ a ++ t) : a <+: b := by
  induction a generalizing b with
  | nil => exact List.nil_prefix
  | cons x a ih =>
    have h1 := bcmp_le.mpr h1
    have h2 := bcmp_le.mpr h2
    cases b with
    | nil => simp [bcmp] at h1
    | cons y b =>
      simp only [List.cons_append, bcmp] at h1 h2
      have hxy : ¬ y < x := by
        intro h
        rw [if_neg (by rw [UInt8.lt_iff_toNat_lt] at *; omega), if_pos h] at h1
        omega
      have hyx : ¬ x < y := by
        intro h
        rw [if_neg (by rw [UInt8.lt_iff_toNat_lt] at *; omega), if_pos h] at h2
        omega
      have : x = y := by
        rw [UInt8.lt_iff_toNat_lt] at hxy hyx
        exact UInt8.toNat_inj.mp (by omega)
      subst this
      rw [if_neg hxy, if_neg hxy] at h1 h2
      exact List.cons_prefix_cons.mpr ⟨rfl, ih (bcmp_le.mp h1) (bcmp_le.mp h2)⟩

theorem convex' {a b p : Bytes} (h1 : a ≤ b) (h2 : b ≤ p) (h3 : a <+: p) : a <+: b := by
  obtain ⟨t, rfl⟩ := h3
  exact convex h1 h2

theorem replicate_zero_le (t : Bytes) : List.replicate t.length (0 : UInt8) ≤ t := by
  refine bcmp_le.mp ?_
  induction t with
  | nil => simp [bcmp]
  | cons x t ih =>
    rw [List.length_cons, List.replicate_succ, bcmp]
    split
    · omega
    · split
      · rename_i h1 h2
        rw [UInt8.lt_iff_toNat_lt] at h2
        simp at h2
      · exact ih

end Verif.B
