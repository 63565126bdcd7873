import Verif.Patch.Lemmas2
import Verif.Patch.ModelEmit
import Verif.Utf8.Props
/-! # The header of a hunk -/
namespace Verif.Patch
open Spec

theorem digit_of : ∀ d : Fin 10, isDigit (UInt8.ofNat (48 + d.val)) = true ∧ (UInt8.ofNat (48 + d.val)).toNat - 48 = d.val := by decide +kernel

theorem scan_decimal : ∀ (n : Nat) (r : Bytes), n < 2 ^ 31 → scanDigits 0 (decimal n ++ r) = scanDigits n r := by
  intro n
  induction n using Nat.strongRecOn with
  | ind n ih =>
    intro r hn
    by_cases h : n < 10
    · have := digit_of ⟨n, h⟩
      rw [decimal_lt n h, List.singleton_append, scanDigits, if_pos this.1]
      dsimp only at this
      rw [this.2, if_pos (by omega)]
      simp
    · rw [decimal_ge n h, List.append_assoc, ih (n / 10) (by omega) _ (by omega), List.singleton_append]
      have := digit_of ⟨n % 10, by omega⟩
      dsimp only at this
      rw [scanDigits, if_pos this.1, this.2, if_pos (by omega)]
      congr 1
      omega

theorem isDigit_iff (c : UInt8) : isDigit c = true ↔ 48 ≤ c ∧ c ≤ 57 := by unfold isDigit; simp

theorem scanInt_decimal (pre : Bytes) (n : Nat) (r : Bytes) (hn : n < 2 ^ 31) (hp : ∀ c ∈ pre, c ≠ 0 ∧ isDigit c = false) (hr : r.head?.all (fun c => !isDigit c) = true) :
    scanInt (pre ++ decimal n ++ r) = .ok (n, r) := by
  obtain ⟨c, cs, hd, h1, h2⟩ := head_digit n
  have hdig : isDigit c = true := (isDigit_iff c).mpr ⟨h1, h2⟩
  have e : (pre ++ decimal n ++ r).dropWhile (fun c => decide (c ≠ 0 ∧ isDigit c = false)) = decimal n ++ r := by
    rw [List.append_assoc, hd, List.cons_append]
    refine dropWhile_append_stop _ _ _ (fun x hx => ?_) (fun x hx => ?_)
    · simpa using hp x hx
    · simp only [List.head?_cons, Option.some.injEq] at hx
      subst hx
      simp [hdig]
  unfold scanInt
  simp only [e]
  rw [if_pos (by rw [hd]; simp [hdig]), scan_decimal n r hn]
  cases r with
  | nil => rfl
  | cons x xs =>
    rw [scanDigits, if_neg]
    simpa using hr

/-- the numbers of a header -/
def nums (s c : Nat) : Bytes := decimal (if c ≠ 0 then s else s - 1) ++ (if c ≠ 1 then b!"," ++ decimal c else [])

/-- the part of a header before the line of the function -/
def headText (s1 c1 s2 c2 : Nat) : Bytes := b!"@@ -" ++ nums s1 c1 ++ b!" +" ++ nums s2 c2 ++ b!" @@"

/-- the line of the function as it is shown -/
def funcText (s1 c1 s2 c2 : Nat) (func : Bytes) : Bytes := if func.length ≠ 0 then b!" " ++ func.take (128 - ((headText s1 c1 s2 c2).length + 1) - 1) else []

theorem formatHeader_eq (s1 c1 s2 c2 : Nat) (func : Bytes) : formatHeader s1 c1 s2 c2 func = headText s1 c1 s2 c2 ++ funcText s1 c1 s2 c2 func ++ b!"\n" := by
  unfold formatHeader funcText headText nums
  simp only [List.append_assoc]
  split <;> simp

theorem scanRange_nums (pre : Bytes) (s c : Nat) (r : Bytes) (hs : s < 2 ^ 31) (hc : c < 2 ^ 31) (hp : ∀ c ∈ pre, c ≠ 0 ∧ isDigit c = false)
    (hr : r.head? = some c!" ") : scanRange (pre ++ nums s c ++ r) = .ok ((if c ≠ 0 then s else s - 1, c), r) := by
  have hrd : r.head?.all (fun c => !isDigit c) = true := by rw [hr]; rfl
  unfold scanRange nums
  by_cases h1 : c = 1
  · subst h1
    have e : pre ++ (decimal (if 1 ≠ 0 then s else s - 1) ++ if 1 ≠ 1 then b!"," ++ decimal 1 else []) ++ r = pre ++ decimal s ++ r := by simp
    rw [e, scanInt_decimal pre _ r hs hp hrd, Res.bind_ok, hr]
    rfl
  · rw [if_pos h1]
    have e : pre ++ (decimal (if c ≠ 0 then s else s - 1) ++ (b!"," ++ decimal c)) ++ r = pre ++ decimal (if c ≠ 0 then s else s - 1) ++ (b!"," ++ decimal c ++ r) := by
      simp [List.append_assoc]
    rw [e, scanInt_decimal pre _ _ (by split <;> omega) hp rfl, Res.bind_ok]
    dsimp only
    rw [if_pos (by simp), scanInt_decimal b!"," c r hc (by decide +kernel) hrd, Res.bind_ok]

theorem shaped_ascii {c : UInt8} (h : c.toNat < 0x80) : Utf8.Spec.Shaped [c] := by
  exact Utf8.Spec.Shaped.one c h

/-- the numbers that are read from a header, and the header that is kept -/
theorem readHeader_eq {s1 c1 s2 c2 : Nat} (func : Bytes) (h1 : s1 < 2 ^ 31) (h2 : c1 < 2 ^ 31) (h3 : s2 < 2 ^ 31) (h4 : c2 < 2 ^ 31) :
    ∃ header, readHeader (formatHeader s1 c1 s2 c2 func) = .ok { oldStart := ((if c1 ≠ 0 then s1 else s1 - 1 : Nat) : Int), oldLines := c1, newStart := ((if c2 ≠ 0 then s2 else s2 - 1 : Nat) : Int), newLines := c2, header := header, lines := [] } ∧
      (formatHeader s1 c1 s2 c2 func = header ∨ (∃ k, k < (formatHeader s1 c1 s2 c2 func).length ∧ (∀ j, k ≤ j → ¬ Utf8.Spec.Shaped (((formatHeader s1 c1 s2 c2 func).drop k).take (j - k))) ∧
        header = (formatHeader s1 c1 s2 c2 func).take k ++ b!"\n") ∨ 127 < (formatHeader s1 c1 s2 c2 func).length) := by
  have hscan : scanRange (formatHeader s1 c1 s2 c2 func) = .ok ((if c1 ≠ 0 then s1 else s1 - 1, c1), b!" +" ++ nums s2 c2 ++ (b!" @@" ++ funcText s1 c1 s2 c2 func ++ b!"\n")) := by
    rw [formatHeader_eq]
    generalize funcText s1 c1 s2 c2 func = f
    have e : headText s1 c1 s2 c2 ++ f ++ b!"\n" = b!"@@ -" ++ nums s1 c1 ++ (b!" +" ++ nums s2 c2 ++ (b!" @@" ++ f ++ b!"\n")) := by
      unfold headText
      simp only [List.append_assoc]
    rw [e]
    exact scanRange_nums b!"@@ -" s1 c1 _ h1 h2 (by decide +kernel) (by simp)
  have hhead : (formatHeader s1 c1 s2 c2 func).head? = some c!"@" := by rw [formatHeader_eq]; unfold headText; simp
  generalize formatHeader s1 c1 s2 c2 func = t at *
  generalize funcText s1 c1 s2 c2 func = f at *
  unfold readHeader
  rw [if_neg (by rw [hhead]; simp), hscan, Res.bind_ok]
  dsimp only
  rw [scanRange_nums b!" +" s2 c2 _ h3 h4 (by decide +kernel) (by simp), Res.bind_ok]
  dsimp only
  obtain ⟨k, hk, hkl, _, hns⟩ := Utf8.C48_valid_buf_length (t.take 127)
  rw [hk, Res.bind_ok]
  refine ⟨_, rfl, ?_⟩
  by_cases hlen : 127 < t.length
  · exact .inr (.inr hlen)
  · have et : t.take 127 = t := List.take_of_length_le (by omega)
    rw [et] at hkl hns ⊢
    by_cases hlt : k < t.length
    · rw [if_pos hlt]
      exact .inr (.inl ⟨k, hlt, fun j _ => hns _, rfl⟩)
    · rw [if_neg hlt]
      exact .inl rfl

end Verif.Patch
