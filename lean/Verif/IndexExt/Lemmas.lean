import Verif.IndexExt.Model
import Verif.Strtol.Props
import Verif.Tree.LemmasCodec
/-! # The pieces of the readers -/
namespace Verif.IndexExt
open Spec
open IndexTree (Cache)
open Strtol.Spec (Number)

theorem bind_eq_ok {α β : Type} (x : Res α) (f : α → Res β) (y : β) : (x >>= f) = .ok y ↔ ∃ a, x = .ok a ∧ f a = .ok y := by
  cases x <;> simp

theorem bind_ne_ub {α β : Type} (x : Res α) (f : α → Res β) (h : x ≠ .ub) (h2 : ∀ a, x = .ok a → f a ≠ .ub) : (x >>= f) ≠ .ub := by
  cases x with
  | ok a => simpa using h2 a rfl
  | err e => simp
  | ub => exact absurd rfl h

theorem advance_append (pre rest a : Bytes) :
    advance (pre ++ rest ++ a) (pre ++ rest).length pre.length = .ok (rest ++ a, rest.length) := by
  unfold advance
  rw [if_neg (by simp)]
  simp

theorem number_split {s : Bytes} {base : Nat} {v : Int} {rest : Bytes} (h : Number s base v rest) : ∃ pre, s = pre ++ rest ∧ pre ≠ [] := by
  obtain ⟨ws, sgn, neg, pre, ds, b, n, h1, -, -, -, -, -, h2, -⟩ := h
  refine ⟨ws ++ (sgn ++ (pre ++ ds)), by rw [h1]; simp, ?_⟩
  simp [h2]

theorem number_ne_nil {s : Bytes} {base : Nat} {v : Int} {rest : Bytes} (h : Number s base v rest) : s ≠ [] := by
  obtain ⟨pre, h1, h2⟩ := number_split h
  rw [h1]; simp [h2]

theorem strntol64_ne_ub (s : Bytes) (base : Nat) : Strtol.strntol64 s base ≠ .ub := by
  intro h
  by_cases hx : ∃ v rest, Number s base v rest ∧ -(2 ^ 63) ≤ v ∧ v < 2 ^ 63
  · obtain ⟨v, rest, hx⟩ := hx
    rw [(Strtol.C46_exact64 s base v rest).2 hx] at h; cases h
  · rw [Strtol.C46_fails s base hx] at h; cases h

theorem strntol32_ne_ub (s : Bytes) (base : Nat) : Strtol.strntol32 s base ≠ .ub := by
  unfold Strtol.strntol32
  have := strntol64_ne_ub s base
  split <;> rename_i h
  · split <;> simp
  · simp
  · exact absurd h this

theorem number64_iff (d a : Bytes) (base : Nat) (v : Int) (len : Nat) : number64 (d ++ a) d.length base = .ok (v, len) ↔
    ∃ pre rest, d = pre ++ rest ∧ len = pre.length ∧ pre ≠ [] ∧ Number d base v rest ∧ -(2 ^ 63) ≤ v ∧ v < 2 ^ 63 := by
  unfold number64
  rw [if_neg (by simp), List.take_left]
  constructor
  · intro h
    cases e : Strtol.strntol64 d base with
    | err x => rw [e] at h; cases h
    | ub => rw [e] at h; cases h
    | ok x =>
      obtain ⟨v', r⟩ := x
      rw [e] at h
      simp only [Res.ok.injEq, Prod.mk.injEq] at h
      obtain ⟨rfl, rfl⟩ := h
      obtain ⟨hn, hr⟩ := (Strtol.C46_exact64 d base v' r).1 e
      obtain ⟨pre, h1, h2⟩ := number_split hn
      exact ⟨pre, r, h1, by rw [h1]; simp, h2, hn, hr⟩
  · rintro ⟨pre, rest, h1, rfl, h2, hn, hr⟩
    rw [(Strtol.C46_exact64 d base v rest).2 ⟨hn, hr⟩]
    simp [h1]

theorem number64_ne_ub (d a : Bytes) (base : Nat) : number64 (d ++ a) d.length base ≠ .ub := by
  unfold number64
  rw [if_neg (by simp), List.take_left]
  have := strntol64_ne_ub d base
  split <;> rename_i h
  · simp
  · simp
  · exact absurd h this

theorem number32_iff (d a : Bytes) (base : Nat) (v : Int) (len : Nat) : number32 (d ++ a) d.length base = .ok (v, len) ↔
    ∃ pre rest, d = pre ++ rest ∧ len = pre.length ∧ pre ≠ [] ∧ Number d base v rest ∧ -(2 ^ 31) ≤ v ∧ v < 2 ^ 31 := by
  unfold number32
  rw [if_neg (by simp), List.take_left]
  constructor
  · intro h
    cases e : Strtol.strntol32 d base with
    | err x => rw [e] at h; cases h
    | ub => rw [e] at h; cases h
    | ok x =>
      obtain ⟨v', r⟩ := x
      rw [e] at h
      simp only [Res.ok.injEq, Prod.mk.injEq] at h
      obtain ⟨rfl, rfl⟩ := h
      obtain ⟨hn, hr⟩ := (Strtol.C46_exact32 d base v' r).1 e
      obtain ⟨pre, h1, h2⟩ := number_split hn
      exact ⟨pre, r, h1, by rw [h1]; simp, h2, hn, hr⟩
  · rintro ⟨pre, rest, h1, rfl, h2, hn, hr⟩
    rw [(Strtol.C46_exact32 d base v rest).2 ⟨hn, hr⟩]
    simp [h1]

theorem number32_ne_ub (d a : Bytes) (base : Nat) : number32 (d ++ a) d.length base ≠ .ub := by
  unfold number32
  rw [if_neg (by simp), List.take_left]
  have := strntol32_ne_ub d base
  split <;> rename_i h
  · simp
  · simp
  · exact absurd h this

/-- the text up to the first NUL, if there is one -/
theorem nul_split (d : Bytes) : (0 : UInt8) ∉ d ∨ ∃ s t, d = s ++ 0 :: t ∧ (0 : UInt8) ∉ s := by
  induction d with
  | nil => exact .inl (by simp)
  | cons c d ih =>
    by_cases hc : c = 0
    · exact .inr ⟨[], d, by rw [hc]; rfl, by simp⟩
    · rcases ih with ih | ⟨s, t, h1, h2⟩
      · exact .inl (by simp only [List.mem_cons, not_or]; exact ⟨fun h => hc h.symm, ih⟩)
      · exact .inr ⟨c :: s, t, by rw [h1]; rfl, by simp only [List.mem_cons, not_or]; exact ⟨fun h => hc h.symm, h2⟩⟩

theorem takeWhile_nul (s t : Bytes) (h : (0 : UInt8) ∉ s) : (s ++ 0 :: t).takeWhile (· ≠ 0) = s := by
  rw [List.takeWhile_append_of_pos]
  · simp
  · intro c hc; simp; rintro rfl; exact h hc

theorem strnlen_none (d a : Bytes) (h : (0 : UInt8) ∉ d) : strnlen (d ++ a) d.length = .ok d.length := by
  unfold strnlen
  rw [List.take_left, if_neg h, if_pos (by simp)]

theorem strnlen_some (s t a : Bytes) (h : (0 : UInt8) ∉ s) : strnlen ((s ++ 0 :: t) ++ a) (s ++ 0 :: t).length = .ok s.length := by
  unfold strnlen
  rw [List.take_left, if_pos (by simp)]
  have e : s ++ 0 :: t ++ a = s ++ 0 :: (t ++ a) := by simp
  rw [e, takeWhile_nul _ _ h]

theorem memchr0_none (d a : Bytes) (h : (0 : UInt8) ∉ d) : memchr0 (d ++ a) d.length = .ok none := by
  unfold memchr0
  rw [List.take_left, if_neg h, if_pos (by simp)]

theorem memchr0_some (s t a : Bytes) (h : (0 : UInt8) ∉ s) : memchr0 ((s ++ 0 :: t) ++ a) (s ++ 0 :: t).length = .ok (some s.length) := by
  unfold memchr0
  rw [List.take_left, if_pos (by simp)]
  have e : s ++ 0 :: t ++ a = s ++ 0 :: (t ++ a) := by simp
  rw [e, takeWhile_nul _ _ h]

theorem cstr_some (s t : Bytes) (h : (0 : UInt8) ∉ s) : cstr (s ++ 0 :: t) = .ok s := by
  unfold cstr
  rw [if_pos (by simp), takeWhile_nul _ _ h]

theorem advance_nul (s t a : Bytes) : advance ((s ++ 0 :: t) ++ a) (s ++ 0 :: t).length (s.length + 1) = .ok (t ++ a, t.length) := by
  have := advance_append (s ++ [0]) t a
  simpa using this

theorem nul_unique {s s' t t' : Bytes} (h : s ++ 0 :: t = s' ++ 0 :: t') (h1 : (0 : UInt8) ∉ s) (h2 : (0 : UInt8) ∉ s') : s = s' ∧ t = t' := by
  have e : (s ++ 0 :: t).takeWhile (· ≠ 0) = (s' ++ 0 :: t').takeWhile (· ≠ 0) := by rw [h]
  rw [takeWhile_nul _ _ h1, takeWhile_nul _ _ h2] at e
  subst e
  simpa using h

end Verif.IndexExt
