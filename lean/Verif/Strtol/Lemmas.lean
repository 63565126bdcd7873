import Verif.Strtol.Model
import Verif.Strtol.Spec
namespace Verif.Strtol
open Spec

theorem digit_iff36 : ∀ c : UInt8, ∀ v : Fin 36, (digits[v.val]? = some c ∨ upper[v.val]? = some c) ↔ digitVal c = some v.val := by
  decide +kernel

theorem digitVal_lt : ∀ c : UInt8, (digitVal c).getD 0 < 36 := by decide +kernel

theorem digit_iff (c : UInt8) (v : Nat) : Digit c v ↔ digitVal c = some v := by
  unfold Digit
  by_cases h : v < 36
  · exact digit_iff36 c ⟨v, h⟩
  · constructor
    · intro hh
      rcases hh with hh | hh <;> have := List.getElem?_eq_some_iff.mp hh <;> obtain ⟨hl, _⟩ := this
      · exact absurd (show v < 36 from hl) h
      · exact absurd (show v < 36 from hl) h
    · intro hh
      have := digitVal_lt c
      rw [hh] at this
      exact absurd this h

theorem space_iff : ∀ c : UInt8, isSpace c = true ↔ Space c := by
  intro c
  unfold isSpace Space
  simp
  grind

/-- test used by the digit loop -/
def isDig (b : Nat) (c : UInt8) : Bool := match digitVal c with
  | some v => v < b
  | none => false

theorem isDig_iff (b : Nat) (c : UInt8) : isDig b c = true ↔ ∃ v, Digit c v ∧ v < b := by
  unfold isDig
  constructor
  · intro h
    cases e : digitVal c with
    | none => simp [e] at h
    | some v => simp [e] at h; exact ⟨v, (digit_iff c v).2 e, h⟩
  · rintro ⟨v, h1, h2⟩
    rw [(digit_iff c v).1 h1]
    simpa using h2

def sgn (neg : Bool) (n : Nat) : Int := if neg then -(n : Int) else n

/-- the accumulator represents the number read so far -/
def Good (neg : Bool) (a : Acc) (n : Nat) : Prop :=
  (a.ovfl = false ∧ a.n = sgn neg n ∧ fits64 (sgn neg n) = true) ∨ (a.ovfl = true ∧ fits64 (sgn neg n) = false)

theorem fits_sgn (neg : Bool) (n : Nat) : fits64 (sgn neg n) = decide (n < if neg then 2 ^ 63 + 1 else 2 ^ 63) := by
  unfold fits64 sgn
  cases neg
  · simp only [Bool.false_eq_true, if_false, decide_eq_decide]; omega
  · simp only [if_true, decide_eq_decide]; omega

theorem wrap_fits (x : Int) (h : fits64 x = true) : wrap64 x = x := by
  unfold fits64 at h; unfold wrap64
  simp at h
  omega

theorem accStep_good (b : Nat) (neg : Bool) (a : Acc) (n v : Nat) (h : Good neg a n) (hv : v < b) :
    Good neg (accStep b neg a v) (n * b + v) ∧ (accStep b neg a v).ndig = a.ndig + 1 := by
  have hnb : n ≤ n * b := Nat.le_mul_of_pos_right n (by omega)
  have hmul : (sgn neg n) * (b : Int) = sgn neg (n * b) := by unfold sgn; cases neg <;> simp [Int.neg_mul]
  have hadd : sgn neg (n * b) + (if neg then -(v : Int) else v) = sgn neg (n * b + v) := by
    unfold sgn; cases neg
    · simp
    · simp; omega
  have key : accStep b neg a v =
      (if !fits64 (a.n * b) then { a with ovfl := true, ndig := a.ndig + 1 }
      else if !fits64 (wrap64 (a.n * b) + (if neg then -(v : Int) else v)) then
        { n := wrap64 (wrap64 (a.n * b) + (if neg then -(v : Int) else v)), ovfl := true, ndig := a.ndig + 1 }
      else { n := wrap64 (a.n * b) + (if neg then -(v : Int) else v), ovfl := a.ovfl, ndig := a.ndig + 1 }) := rfl
  rw [key]
  generalize hv' : (if neg then -(v : Int) else v) = w at *
  rcases h with ⟨h1, h2, h3⟩ | ⟨h1, h3⟩
  · rw [h2, hmul]
    cases hf : fits64 (sgn neg (n * b)) with
    | false =>
      simp only [Bool.not_false, if_true]
      refine ⟨.inr ⟨by simp, ?_⟩, by simp⟩
      rw [fits_sgn] at hf ⊢
      simp only [decide_eq_false_iff_not] at hf ⊢; omega
    | true =>
      simp only [Bool.not_true, Bool.false_eq_true, if_false, wrap_fits _ hf, hadd]
      cases hf2 : fits64 (sgn neg (n * b + v)) with
      | false => simp only [Bool.not_false, if_true]; exact ⟨.inr ⟨by simp, hf2⟩, by simp⟩
      | true =>
        simp only [Bool.not_true, Bool.false_eq_true, if_false]
        exact ⟨.inl ⟨h1, by simp, hf2⟩, by simp⟩
  · have hnf : fits64 (sgn neg (n * b + v)) = false := by
      rw [fits_sgn] at h3 ⊢
      simp only [decide_eq_false_iff_not] at h3 ⊢; omega
    by_cases c1 : (!fits64 (a.n * b)) = true
    · rw [if_pos c1]; exact ⟨.inr ⟨rfl, hnf⟩, rfl⟩
    · rw [if_neg c1]
      by_cases c2 : (!fits64 (wrap64 (a.n * b) + w)) = true
      · rw [if_pos c2]; exact ⟨.inr ⟨rfl, hnf⟩, rfl⟩
      · rw [if_neg c2]; exact ⟨.inr ⟨h1, hnf⟩, rfl⟩

/-- running the loop over a spelled number -/
theorem digitLoop_spells (b : Nat) (neg : Bool) (ds : Bytes) (n : Nat) (h : Spells b ds n) :
    ∀ rest, ∃ a, digitLoop b neg ⟨0, false, 0⟩ (ds ++ rest) = digitLoop b neg a rest ∧ Good neg a n ∧ a.ndig = ds.length := by
  induction h with
  | nil =>
    intro rest
    refine ⟨⟨0, false, 0⟩, rfl, .inl ⟨rfl, ?_, ?_⟩, rfl⟩
    · cases neg <;> simp [sgn]
    · rw [fits_sgn]; cases neg <;> simp
  | @snoc ds n c v hs hd hv ih =>
    intro rest
    obtain ⟨a, h1, h2, h3⟩ := ih (c :: rest)
    have := accStep_good b neg a n v h2 hv
    refine ⟨accStep b neg a v, ?_, this.1, by simp [this.2, h3]⟩
    rw [List.append_assoc, List.singleton_append, h1, digitLoop, (digit_iff c v).1 hd]
    simp only
    rw [if_neg (by omega)]

theorem digitLoop_stop (b : Nat) (neg : Bool) (a : Acc) (rest : Bytes) (h : ∀ c, rest.head? = some c → isDig b c = false) :
    digitLoop b neg a rest = (a, rest) := by
  cases rest with
  | nil => rfl
  | cons c cs =>
    have := h c rfl
    unfold isDig at this
    rw [digitLoop]
    cases e : digitVal c with
    | none => rfl
    | some v =>
      simp [e] at this
      simp only
      rw [if_pos this]

theorem spells_exists (b : Nat) (ds : Bytes) (h : ∀ c ∈ ds, isDig b c = true) : ∃ n, Spells b ds n := by
  induction ds using list_snoc_induction with
  | hnil => exact ⟨0, .nil⟩
  | hsnoc l c ih =>
    obtain ⟨n, hn⟩ := ih (fun x hx => h x (by simp [hx]))
    obtain ⟨v, h1, h2⟩ := (isDig_iff b c).1 (h c (by simp))
    exact ⟨_, .snoc hn h1 h2⟩

/-- the loop, in one statement -/
theorem digitLoop_char (b : Nat) (neg : Bool) (s : Bytes) :
    ∃ n a, Spells b (s.takeWhile (isDig b)) n ∧ digitLoop b neg ⟨0, false, 0⟩ s = (a, s.dropWhile (isDig b)) ∧
      Good neg a n ∧ a.ndig = (s.takeWhile (isDig b)).length := by
  obtain ⟨n, hn⟩ := spells_exists b _ (takeWhile_all (isDig b) s)
  obtain ⟨a, h1, h2, h3⟩ := digitLoop_spells b neg _ n hn (s.dropWhile (isDig b))
  rw [List.takeWhile_append_dropWhile, digitLoop_stop b neg a _ (dropWhile_head _ _)] at h1
  exact ⟨n, a, hn, h1, h2, h3⟩

/-- a run spells one number only -/
theorem Spells.unique {b : Nat} {ds : Bytes} {n m : Nat} (h1 : Spells b ds n) (h2 : Spells b ds m) : n = m := by
  induction h1 generalizing m with
  | nil =>
    generalize hx : ([] : Bytes) = x at h2
    cases h2 with
    | nil => rfl
    | snoc _ _ _ => simp at hx
  | @snoc ds n c v _ hd hv ih =>
    generalize hx : ds ++ [c] = x at h2
    cases h2 with
    | nil => simp at hx
    | @snoc ds' n' c' v' hs' hd' hv' =>
      have := List.append_inj' hx rfl
      obtain ⟨rfl, hc⟩ := this
      cases hc
      have e1 := ih hs'
      have e2 : v = v' := by
        have a1 := (digit_iff c v).1 hd
        have a2 := (digit_iff c v').1 hd'
        rw [a1] at a2; exact Option.some.inj a2
      rw [e1, e2]

theorem Spells.isDig {b : Nat} {ds : Bytes} {n : Nat} (h : Spells b ds n) : ∀ c ∈ ds, isDig b c = true := by
  induction h with
  | nil => simp
  | snoc hs hd hv ih =>
    intro c hc
    rcases List.mem_append.mp hc with h | h
    · exact ih c h
    · simp at h; subst h; exact (isDig_iff _ _).2 ⟨_, hd, hv⟩

/-- text that begins with `0x` and has something after it -/
def HexP (p : Bytes) : Prop := ∃ x t, t ≠ [] ∧ (x = c!"x" ∨ x = c!"X") ∧ p = c!"0" :: x :: t

theorem detect_hex (p : Bytes) (h : HexP p) : detectBase 0 p = 16 := by
  obtain ⟨x, t, h1, h2, rfl⟩ := h
  simp [detectBase, h1, h2]

theorem detect_nohex (p : Bytes) (h : ¬ HexP p) : detectBase 0 p = if p.head? = some c!"0" then 8 else 10 := by
  unfold detectBase
  rw [if_pos rfl]
  split
  · rename_i x rest
    rw [if_neg]
    · simp
    · rintro ⟨h1, h2⟩
      exact h ⟨x, rest, h1, h2, rfl⟩
  · simp
  · rename_i h1 h2
    rw [if_neg]
    intro hh
    cases p with
    | nil => simp at hh
    | cons y ys =>
      simp at hh
      subst hh
      exact h2 ys rfl

theorem skip_hex (p : Bytes) (h : HexP p) : skipPrefix 16 p = p.drop 2 := by
  obtain ⟨x, t, h1, h2, rfl⟩ := h
  simp [skipPrefix, h1, h2]

theorem skip_no (b : Nat) (p : Bytes) (h : ¬ (HexP p ∧ b = 16)) : skipPrefix b p = p := by
  unfold skipPrefix
  split
  · rename_i x rest
    rw [if_neg]
    rintro ⟨h0, h1, h2⟩
    exact h ⟨⟨x, rest, h1, h2, rfl⟩, h0⟩
  · rfl

/-- the code's base/prefix handling is the specification's -/
theorem prefix_iff (base : Nat) (tl pre : Bytes) (b : Nat) :
    Prefix base pre b tl ↔ detectBase base (pre ++ tl) = b ∧ skipPrefix b (pre ++ tl) = tl := by
  have hx : (∃ x t, t ≠ [] ∧ (x = c!"x" ∨ x = c!"X") ∧ pre ++ tl = c!"0" :: x :: t) ↔ HexP (pre ++ tl) := Iff.rfl
  unfold Prefix
  simp only
  rw [hx]
  by_cases hh : HexP (pre ++ tl) ∧ (base = 0 ∨ base = 16)
  · obtain ⟨h1, h2⟩ := hh
    have hd : detectBase base (pre ++ tl) = 16 := by
      rcases h2 with rfl | rfl
      · exact detect_hex _ h1
      · simp [detectBase]
    constructor
    · rintro (⟨_, _, h3, h4⟩ | ⟨h3, _⟩)
      · subst h4
        refine ⟨hd, ?_⟩
        rw [skip_hex _ h1, ← h3, List.drop_left]
      · exact absurd ⟨h1, h2⟩ h3
    · rintro ⟨h3, h4⟩
      left
      have : b = 16 := by omega
      subst this
      refine ⟨h1, h2, ?_, rfl⟩
      rw [skip_hex _ h1] at h4
      have := congrArg List.length h4
      obtain ⟨x, t, a1, _, a3⟩ := h1
      have h5 := congrArg List.length a3
      have h6 : 0 < t.length := List.length_pos_iff.mpr a1
      simp at this h5
      omega
  · have hd : detectBase base (pre ++ tl) = if base = 0 then (if (pre ++ tl).head? = some c!"0" then 8 else 10) else base := by
      by_cases h0 : base = 0
      · subst h0
        rw [if_pos rfl, detect_nohex]
        intro h; exact hh ⟨h, .inl rfl⟩
      · simp [detectBase, h0]
    have hs : skipPrefix (detectBase base (pre ++ tl)) (pre ++ tl) = pre ++ tl := by
      apply skip_no
      rintro ⟨h1, h2⟩
      rw [hd] at h2
      split at h2
      · split at h2 <;> omega
      · exact hh ⟨h1, .inr h2⟩
    constructor
    · rintro (⟨h1, h2, _⟩ | ⟨_, h3, h4⟩)
      · exact absurd ⟨h1, h2⟩ hh
      · subst h3
        simp only [List.nil_append] at hd hs ⊢
        rw [← hd] at h4
        subst h4
        exact ⟨rfl, hs⟩
    · rintro ⟨h1, h2⟩
      right
      subst h1
      rw [hs] at h2
      have : pre = [] := by
        have := congrArg List.length h2
        simp at this
        exact this
      subst this
      exact ⟨hh, rfl, hd⟩

end Verif.Strtol
