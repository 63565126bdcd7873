import Verif.Wildmatch.Model
import Verif.Wildmatch.Spec
/-! # Bracket expressions: one pass and two -/
namespace Verif.Wildmatch
open Spec

/-- the flags as a mode -/
def Flags.mode (fl : Flags) : Mode := ⟨fl.casefold, fl.pathname⟩

theorem fold_seen (fl : Flags) (c : UInt8) : fold fl c = seen fl.mode c := by
  unfold fold seen Flags.mode
  cases fl.casefold
  · rfl
  · simp only [Bool.true_and, if_true]
    revert c; unfold isUpper toLower isUpper lower; decide +kernel

theorem inRange_iff (fl : Flags) (lo hi t : UInt8) : inRange fl lo hi t = true ↔ (Item.range lo hi).Has fl.mode t := by
  unfold inRange Item.Has Flags.mode
  by_cases h : t ≤ hi ∧ t ≥ lo
  · rw [if_pos (by simpa using h)]
    simp only [true_iff]
    exact .inl ⟨h.2, h.1⟩
  · rw [if_neg (by simpa using h)]
    cases fl.casefold
    · simp only [Bool.false_and, Bool.false_eq_true, if_false, false_and, or_false, false_iff]
      exact fun e => h ⟨e.2, e.1⟩
    · simp only [Bool.true_and, true_and]
      by_cases hl : isLower t = true
      · have hu : toUpper t = upper t := by
          clear h; revert t; unfold isLower toUpper isLower upper; decide +kernel
        rw [if_pos hl, hu]
        simp only [ge_iff_le, Bool.and_eq_true, decide_eq_true_eq]
        constructor
        · exact fun e => .inr ⟨e.2, e.1⟩
        · rintro (e | e)
          · exact absurd ⟨e.2, e.1⟩ h
          · exact ⟨e.2, e.1⟩
      · have hu : upper t = t := by
          clear h; revert t; unfold isLower upper; decide +kernel
        rw [if_neg hl, hu]
        simp only [Bool.false_eq_true, or_self, false_iff]
        exact fun e => h ⟨e.2, e.1⟩

theorem class_iff (fl : Flags) (k : Class) (t : UInt8) (b : Bool)
    (h : b = match k with
      | .alnum => isAlnum t | .alpha => isAlpha t | .blank => isBlank t | .cntrl => isCntrl t | .digit => isDigit t | .graph => isGraph t
      | .lower => isLower t | .print => isPrint t | .punct => isPunct t | .space => isSpace t
      | .upper => (isUpper t || (fl.casefold && isLower t)) | .xdigit => isXdigit t) : b = true ↔ k.Has fl.mode t := by
  subst h
  unfold Flags.mode
  cases fl with
  | mk cf pn =>
    cases k
    all_goals (simp only [Class.Has])
    case upper =>
      cases cf
      · revert t; simp only [Bool.false_and, Bool.false_eq_true, false_and]; unfold isUpper; decide +kernel
      · revert t; simp only [Bool.true_and, true_and]; unfold isUpper isLower; decide +kernel
    case alnum => revert t; unfold isAlnum isAlpha isUpper isLower isDigit; decide +kernel
    case alpha => revert t; unfold isAlpha isUpper isLower; decide +kernel
    case blank => revert t; unfold isBlank; decide +kernel
    case cntrl => revert t; unfold isCntrl; decide +kernel
    case digit => revert t; unfold isDigit; decide +kernel
    case graph => revert t; unfold isGraph isPrint isSpace; decide +kernel
    case lower => revert t; unfold isLower; decide +kernel
    case print => revert t; unfold isPrint; decide +kernel
    case punct => revert t; unfold isPunct isGraph isPrint isSpace isAlnum isAlpha isUpper isLower isDigit; decide +kernel
    case space => revert t; unfold isSpace; decide +kernel
    case xdigit => revert t; unfold isXdigit isDigit; decide +kernel

theorem charClass_eq (fl : Flags) (name : Bytes) (t : UInt8) :
    match Class.ofName name with
    | none => charClass fl name t = none
    | some k => ∃ b, charClass fl name t = some b ∧ (b = true ↔ k.Has fl.mode t) := by
  unfold Class.ofName charClass
  by_cases h : name = b!"alnum"
  · rw [if_pos h, if_pos h]; exact ⟨_, rfl, class_iff fl .alnum t _ rfl⟩
  rw [if_neg h, if_neg h]; clear h
  by_cases h : name = b!"alpha"
  · rw [if_pos h, if_pos h]; exact ⟨_, rfl, class_iff fl .alpha t _ rfl⟩
  rw [if_neg h, if_neg h]; clear h
  by_cases h : name = b!"blank"
  · rw [if_pos h, if_pos h]; exact ⟨_, rfl, class_iff fl .blank t _ rfl⟩
  rw [if_neg h, if_neg h]; clear h
  by_cases h : name = b!"cntrl"
  · rw [if_pos h, if_pos h]; exact ⟨_, rfl, class_iff fl .cntrl t _ rfl⟩
  rw [if_neg h, if_neg h]; clear h
  by_cases h : name = b!"digit"
  · rw [if_pos h, if_pos h]; exact ⟨_, rfl, class_iff fl .digit t _ rfl⟩
  rw [if_neg h, if_neg h]; clear h
  by_cases h : name = b!"graph"
  · rw [if_pos h, if_pos h]; exact ⟨_, rfl, class_iff fl .graph t _ rfl⟩
  rw [if_neg h, if_neg h]; clear h
  by_cases h : name = b!"lower"
  · rw [if_pos h, if_pos h]; exact ⟨_, rfl, class_iff fl .lower t _ rfl⟩
  rw [if_neg h, if_neg h]; clear h
  by_cases h : name = b!"print"
  · rw [if_pos h, if_pos h]; exact ⟨_, rfl, class_iff fl .print t _ rfl⟩
  rw [if_neg h, if_neg h]; clear h
  by_cases h : name = b!"punct"
  · rw [if_pos h, if_pos h]; exact ⟨_, rfl, class_iff fl .punct t _ rfl⟩
  rw [if_neg h, if_neg h]; clear h
  by_cases h : name = b!"space"
  · rw [if_pos h, if_pos h]; exact ⟨_, rfl, class_iff fl .space t _ rfl⟩
  rw [if_neg h, if_neg h]; clear h
  by_cases h : name = b!"upper"
  · rw [if_pos h, if_pos h]; exact ⟨_, rfl, class_iff fl .upper t _ rfl⟩
  rw [if_neg h, if_neg h]; clear h
  by_cases h : name = b!"xdigit"
  · rw [if_pos h, if_pos h]; exact ⟨_, rfl, class_iff fl .xdigit t _ rfl⟩
  rw [if_neg h, if_neg h]

/-- a round of the loop agrees with an item -/
def StepOk (fl : Flags) (t : UInt8) (m : Bool) : Option (Item × UInt8 × Bytes) → Option (Bool × UInt8 × Bytes) → Prop
  | none, r => r = none
  | some (i, prev', q'), r => ∃ m', r = some (m', prev', q') ∧ (m' = true ↔ m = true ∨ i.Has fl.mode t)

theorem step_eq (fl : Flags) (t prev : UInt8) (q : Bytes) (m : Bool) : StepOk fl t m (readItem prev q) (bracketStep fl t prev q m) := by
  unfold readItem
  split
  · rfl
  · rfl
  · rename_i l q
    refine ⟨m || decide (t = l), ?_, by simp [Item.Has]⟩
    simp [bracketStep]
  · rename_i q1
    by_cases hp : prev = 0
    · rw [if_pos hp]
      refine ⟨m || decide (t = 45), ?_, by simp [Item.Has]⟩
      simp [bracketStep, hp]
    · rw [if_neg hp]
      split
      · refine ⟨m || decide (t = 45), ?_, by simp [Item.Has]⟩
        simp [bracketStep]
      · refine ⟨m || decide (t = 45), ?_, by simp [Item.Has]⟩
        simp [bracketStep]
      · simp [bracketStep, hp, StepOk]
      · rename_i hi q
        refine ⟨m || inRange fl prev hi t, ?_, by rw [Bool.or_eq_true, inRange_iff]⟩
        simp [bracketStep, hp]
      · rename_i hi q h1 h2 h3
        have h93 : hi ≠ 93 := h1
        have h92 : hi ≠ 92 := by
          intro e
          cases q with
          | nil => exact h2 e rfl
          | cons a q => exact h3 _ _ e rfl
        refine ⟨m || inRange fl prev hi t, ?_, by rw [Bool.or_eq_true, inRange_iff]⟩
        simp [bracketStep, hp, h92, h93]
  · rename_i s
    dsimp only
    have hstep : bracketStep fl t prev (91 :: 58 :: s) m =
        if s.length ≤ (s.takeWhile (· != c!"]")).length then none
        else if (s.takeWhile (· != c!"]")) = [] || (s.takeWhile (· != c!"]")).getLast? ≠ some c!":" then some (m || t = c!"[", c!"[", 58 :: s)
        else
          match charClass fl (s.takeWhile (· != c!"]")).dropLast t with
          | none => none
          | some b => some (m || b, 0, s.drop ((s.takeWhile (· != c!"]")).length + 1)) := by
      rfl
    rw [hstep]
    clear hstep
    by_cases h1 : s.length ≤ (s.takeWhile (· != c!"]")).length
    · rw [if_pos h1, if_pos h1]; exact rfl
    rw [if_neg h1, if_neg h1]
    by_cases h2 : (s.takeWhile (· != c!"]")) = [] ∨ (s.takeWhile (· != c!"]")).getLast? ≠ some c!":"
    · rw [if_pos h2, if_pos (by simpa using h2)]
      exact ⟨_, rfl, by simp [Item.Has]⟩
    · rw [if_neg h2, if_neg (by simpa using h2)]
      have hc := charClass_eq fl (s.takeWhile (· != c!"]")).dropLast t
      cases hk : Class.ofName (s.takeWhile (· != c!"]")).dropLast with
      | none => rw [hk] at hc; simp only [Option.map_none]; rw [hc]; exact rfl
      | some k =>
        rw [hk] at hc
        obtain ⟨b, hb, hb'⟩ := hc
        simp only [Option.map_some]
        rw [hb]
        exact ⟨_, rfl, by rw [Bool.or_eq_true, hb']; rfl⟩
  · rename_i c q h1 h2 h3 h4
    have hc92 : c ≠ 92 := by
      intro e
      cases q with
      | nil => exact h1 e rfl
      | cons a q => exact h2 _ _ e rfl
    have hc45 : c ≠ 45 := h3
    have hc91 : ¬ (c = 91 ∧ q.head? = some 58) := by
      rintro ⟨e, hq⟩
      cases q with
      | nil => simp at hq
      | cons a q => simp only [List.head?_cons, Option.some.injEq] at hq; subst hq; exact h4 _ e rfl
    refine ⟨m || decide (t = c), ?_, by simp [Item.Has]⟩
    unfold bracketStep
    simp only [hc92, hc45, if_false, decide_false, Bool.false_and, Bool.false_eq_true]
    rw [if_neg (by simpa using hc91)]

theorem readItem_lt {prev prev' : UInt8} {q q' : Bytes} {i : Item} (h : readItem prev q = some (i, prev', q')) : q'.length < q.length := by
  have := step_eq ⟨false, false⟩ 0 prev q false
  rw [h] at this
  obtain ⟨m', hm, _⟩ := this
  exact bracketStep_lt hm

theorem bracketLoop_none {fl : Flags} {t prev : UInt8} {q : Bytes} {m : Bool} (h : bracketStep fl t prev q m = none) :
    bracketLoop fl t prev q m = none := by
  rw [bracketLoop]
  split
  · rfl
  · rename_i h'; rw [h] at h'; cases h'

theorem bracketLoop_some {fl : Flags} {t prev : UInt8} {q : Bytes} {m m' : Bool} {prev' : UInt8} {q' : Bytes}
    (h : bracketStep fl t prev q m = some (m', prev', q')) :
    bracketLoop fl t prev q m = if q'.head? = some c!"]" then some (m', q'.tail) else bracketLoop fl t prev' q' m' := by
  rw [bracketLoop]
  split
  · rename_i h'; rw [h] at h'; cases h'
  · rename_i h'; rw [h] at h'; cases h'; rfl

theorem items_eq (fl : Flags) (t : UInt8) (fuel : Nat) (prev : UInt8) (q : Bytes) (m : Bool) (hf : q.length < fuel) :
    match readItems fuel prev q with
    | none => bracketLoop fl t prev q m = none
    | some (is, r) => ∃ m', bracketLoop fl t prev q m = some (m', r) ∧ (m' = true ↔ m = true ∨ ∃ i ∈ is, i.Has fl.mode t) := by
  induction fuel generalizing prev q m with
  | zero => omega
  | succ fuel ih =>
    have hs := step_eq fl t prev q m
    unfold readItems
    cases hr : readItem prev q with
    | none =>
      rw [hr] at hs
      exact bracketLoop_none hs
    | some x =>
      obtain ⟨i, prev', q'⟩ := x
      rw [hr] at hs
      obtain ⟨m', hm, hm'⟩ := hs
      rw [bracketLoop_some hm]
      have hlt := bracketStep_lt hm
      simp only []
      by_cases hb : q'.head? = some c!"]"
      · rw [if_pos hb, if_pos hb]
        exact ⟨_, rfl, by rw [hm']; simp⟩
      · rw [if_neg hb, if_neg hb]
        have hi := ih prev' q' m' (by omega)
        cases hri : readItems fuel prev' q' with
        | none =>
          rw [hri] at hi
          exact hi
        | some y =>
          obtain ⟨is, r⟩ := y
          rw [hri] at hi
          obtain ⟨m3, h3, h3'⟩ := hi
          simp only [Option.map_some]
          rw [h3]
          exact ⟨_, rfl, by rw [h3', hm', or_assoc]; simp⟩

theorem set_eq (fl : Flags) (t : UInt8) (q : Bytes) :
    match readSet q with
    | none => bracket fl (fold fl t) q = none
    | some (o, r) => ∃ m neg, bracket fl (fold fl t) q = some (m, neg, r) ∧
        (o.Has fl.mode t ↔ ¬ (m = neg ∨ (fl.pathname = true ∧ fold fl t = c!"/"))) := by
  unfold readSet bracket
  have hneg : (decide (q.head? = some c!"!") || decide (q.head? = some c!"^")) = decide (q.head? = some c!"!" ∨ q.head? = some c!"^") := by
    simp
  simp only [hneg, decide_eq_true_eq]
  generalize hneg' : decide (q.head? = some c!"!" ∨ q.head? = some c!"^") = neg
  generalize hq : (if q.head? = some c!"!" ∨ q.head? = some c!"^" then q.tail else q) = q'
  have hi := items_eq fl (fold fl t) (q'.length + 1) 0 q' false (by omega)
  cases hr : readItems (q'.length + 1) 0 q' with
  | none => rw [hr] at hi; simp only [Option.map_none]; rw [hi]; rfl
  | some x =>
    obtain ⟨is, r⟩ := x
    rw [hr] at hi
    obtain ⟨m', h1, h2⟩ := hi
    simp only [Option.map_some]
    rw [h1]
    refine ⟨m', neg, rfl, ?_⟩
    have hsl : fold fl t = c!"/" ↔ t = c!"/" := by
      have h : ∀ x : UInt8, toLower x = c!"/" ↔ x = c!"/" := by unfold toLower isUpper; decide +kernel
      unfold fold
      split
      · exact h t
      · rfl
    simp only [Bool.false_eq_true, false_or] at h2
    simp only [One.Has, ← fold_seen, ← h2, hsl, show fl.mode.pathname = fl.pathname from rfl]
    cases m' <;> cases neg <;> simp

theorem readSet_lt {q r : Bytes} {o : One} (h : readSet q = some (o, r)) : r.length < q.length := by
  have := set_eq ⟨false, false⟩ 0 q
  rw [h] at this
  obtain ⟨m, neg, hb, _⟩ := this
  exact bracket_lt hb

end Verif.Wildmatch
