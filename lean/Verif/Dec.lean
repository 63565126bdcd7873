import Verif.Strtol.Props
/-! # Decimal numerals, as `printf("%d")` writes them -/
namespace Verif
open Verif.Strtol.Spec

/-- the decimal numeral of a natural number: what `%d`, `%u`, `%zu`, `PRId64` print for it (C standard library) -/
def decimal (n : Nat) : Bytes :=
  if n < 10 then [UInt8.ofNat (48 + n)] else decimal (n / 10) ++ [UInt8.ofNat (48 + n % 10)]

/-- what `%lld` prints for a signed number -/
def decimalInt (v : Int) : Bytes := if v < 0 then c!"-" :: decimal v.natAbs else decimal v.natAbs

theorem digit10 : ∀ d : Fin 10, digits[d.val]? = some (UInt8.ofNat (48 + d.val)) := by decide +kernel

theorem decimal_lt (n : Nat) (h : n < 10) : decimal n = [UInt8.ofNat (48 + n)] := by rw [decimal, if_pos h]
theorem decimal_ge (n : Nat) (h : ¬ n < 10) : decimal n = decimal (n / 10) ++ [UInt8.ofNat (48 + n % 10)] := by rw [decimal, if_neg h]

theorem decimal_spells (n : Nat) : Spells 10 (decimal n) n := by
  induction n using Nat.strongRecOn with
  | _ n ih =>
    rw [decimal]
    split
    · rename_i h
      have := Spells.snoc (b := 10) Spells.nil (Or.inl (digit10 ⟨n, h⟩)) h
      simpa using this
    · rename_i h
      have hm : n % 10 < 10 := Nat.mod_lt _ (by omega)
      have := Spells.snoc (ih (n / 10) (by omega)) (Or.inl (digit10 ⟨n % 10, hm⟩)) hm
      have e : n / 10 * 10 + n % 10 = n := by omega
      rw [e] at this
      exact this

theorem decimal_ne_nil (n : Nat) : decimal n ≠ [] := by rw [decimal]; split <;> simp

theorem isdigit10 : ∀ d : Fin 10, 48 ≤ (UInt8.ofNat (48 + d.val)) ∧ (UInt8.ofNat (48 + d.val)) ≤ 57 := by decide +kernel

/-- all its characters are digits -/
theorem decimal_digits (n : Nat) : ∀ c ∈ decimal n, 48 ≤ c ∧ c ≤ 57 := by
  induction n using Nat.strongRecOn with
  | _ n ih =>
    by_cases h : n < 10
    · rw [decimal_lt n h]
      intro c hc
      simp only [List.mem_singleton] at hc
      subst hc
      exact isdigit10 ⟨n, h⟩
    · rw [decimal_ge n h]
      intro c hc
      rcases List.mem_append.mp hc with hc | hc
      · exact ih (n / 10) (by omega) c hc
      · simp only [List.mem_singleton] at hc
        subst hc
        exact isdigit10 ⟨n % 10, Nat.mod_lt _ (by omega)⟩

theorem decimal_length (k : Nat) : ∀ n, n < 10 ^ (k + 1) → (decimal n).length ≤ k + 1 := by
  induction k with
  | zero => intro n h; rw [decimal_lt n (by simpa using h)]; simp
  | succ k ih =>
    intro n h
    by_cases h10 : n < 10
    · rw [decimal_lt n h10]; simp
    · rw [decimal_ge n h10]
      have := ih (n / 10) (by rw [Nat.div_lt_iff_lt_mul (by decide)]; rwa [Nat.pow_succ] at h)
      simp; omega

theorem head_digit (n : Nat) : ∃ c cs, decimal n = c :: cs ∧ 48 ≤ c ∧ c ≤ 57 := by
  obtain ⟨c, cs, h⟩ := List.exists_cons_of_ne_nil (decimal_ne_nil n)
  exact ⟨c, cs, h, decimal_digits n c (by rw [h]; simp)⟩

theorem digit_facts : ∀ c : UInt8, 48 ≤ c → c ≤ 57 → c ≠ 0x20 ∧ c ≠ 9 ∧ c ≠ 10 ∧ c ≠ 11 ∧ c ≠ 12 ∧ c ≠ 13 ∧ c ≠ c!"-" ∧ c ≠ c!"+" ∧ c ≠ 0 := by
  decide +kernel

theorem digit_not_space' (c : UInt8) (h1 : 48 ≤ c) (h2 : c ≤ 57) : ¬ Space c := by
  obtain ⟨a, b, d, e, f, g, _⟩ := digit_facts c h1 h2
  unfold Space
  simp [a, b, d, e, f, g]

/-- a decimal numeral reads as its number, whatever follows that is not a digit -/
theorem number_decimal (n : Nat) (rest : Bytes) (hr : ∀ c, rest.head? = some c → ∀ d, Digit c d → 10 ≤ d) :
    Number (decimal n ++ rest) 10 n rest := by
  obtain ⟨c, cs, hc, h1, h2⟩ := head_digit n
  refine ⟨[], [], false, [], decimal n, 10, n, rfl, by simp, ?_, .inr ⟨rfl, .inr rfl⟩, ?_, by omega, decimal_ne_nil n,
    decimal_spells n, hr, by simp⟩
  · intro c' hc'
    rw [hc] at hc'
    simp at hc'
    subst hc'
    exact digit_not_space' c h1 h2
  · right
    refine ⟨?_, rfl, by simp⟩
    rintro ⟨_, h | h⟩ <;> simp at h

theorem strntol64_decimal (n : Nat) (rest : Bytes) (hr : ∀ c, rest.head? = some c → ∀ d, Digit c d → 10 ≤ d) (hn : n < 2 ^ 63) :
    Strtol.strntol64 (decimal n ++ rest) 10 = .ok ((n : Int), rest) :=
  (Strtol.C46_exact64 _ _ _ _).mpr ⟨number_decimal n rest hr, by omega, by omega⟩

theorem number_decimal_neg (n : Nat) (rest : Bytes) (hr : ∀ c, rest.head? = some c → ∀ d, Digit c d → 10 ≤ d) :
    Number (c!"-" :: decimal n ++ rest) 10 (-(n : Int)) rest := by
  refine ⟨[], b!"-", true, [], decimal n, 10, n, rfl, by simp, ?_, .inl ⟨rfl, rfl⟩, ?_, by omega, decimal_ne_nil n,
    decimal_spells n, hr, by simp⟩
  · intro c' hc'
    simp at hc'
    subst hc'
    unfold Space
    decide
  · right
    refine ⟨?_, rfl, by simp⟩
    rintro ⟨_, h | h⟩ <;> simp at h

theorem strntol64_decimalInt (v : Int) (rest : Bytes) (hr : ∀ c, rest.head? = some c → ∀ d, Digit c d → 10 ≤ d)
    (h1 : -(2 ^ 63) ≤ v) (h2 : v < 2 ^ 63) : Strtol.strntol64 (decimalInt v ++ rest) 10 = .ok (v, rest) := by
  unfold decimalInt
  split
  · refine (Strtol.C46_exact64 _ _ _ _).mpr ⟨?_, h1, h2⟩
    have := number_decimal_neg v.natAbs rest hr
    rwa [show -((v.natAbs : Nat) : Int) = v by omega] at this
  · refine (Strtol.C46_exact64 _ _ _ _).mpr ⟨?_, h1, h2⟩
    have := number_decimal v.natAbs rest hr
    rwa [show ((v.natAbs : Nat) : Int) = v by omega] at this

end Verif
