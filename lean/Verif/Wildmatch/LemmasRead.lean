import Verif.Wildmatch.LemmasSet
/-! # The meaning of a pattern, element by element -/
namespace Verif.Wildmatch
open Spec

variable {m : Mode}

theorem dropStars_lt (p : Bytes) : (p.dropWhile (· == c!"*")).length < (c!"*" :: p).length := by
  have := dropWhile_length_le (fun x : UInt8 => x == c!"*") p
  simp only [List.length_cons]; omega

theorem readStars_le (m : Mode) (first double : Bool) (r : Bytes) : (readStars m first double r).2.length ≤ r.length := by
  unfold readStars
  split
  · exact Nat.le_refl _
  split
  · split <;> simp
  · exact Nat.le_refl _

/-- enough fuel is enough -/
theorem read_fuel (m : Mode) (n : Nat) : ∀ (first : Bool) (p : Bytes) (f g : Nat), p.length ≤ n → p.length < f → p.length < g → readPat m f first p = readPat m g first p := by
  induction n with
  | zero =>
    intro first p f g h hf hg
    have : p = [] := List.length_eq_zero_iff.mp (by omega)
    subst this
    cases f with
    | zero => simp at hf
    | succ f => cases g with
      | zero => simp at hg
      | succ g => rfl
  | succ n ih =>
    intro first p f g h hf hg
    cases f with
    | zero => simp at hf
    | succ f =>
    cases g with
    | zero => simp at hg
    | succ g =>
    unfold readPat
    split
    · rfl
    · split
      · rfl
      · rename_i l p
        simp only [List.length_cons] at h hf hg
        rw [ih _ p f g (by omega) (by omega) (by omega)]
    · rename_i p
      simp only [List.length_cons] at h hf hg
      rw [ih _ p f g (by omega) (by omega) (by omega)]
    · rename_i p
      split
      · rfl
      · rename_i o r hr
        have := readSet_lt hr
        simp only [List.length_cons] at h hf hg
        rw [ih _ r f g (by omega) (by omega) (by omega)]
    · rename_i p
      have h1 := readStars_le m first (p.head? = some c!"*") (p.dropWhile (· == c!"*"))
      have h2 := dropStars_lt p
      simp only [List.length_cons] at h hf hg h2
      generalize readStars m first (p.head? = some c!"*") (p.dropWhile (· == c!"*")) = x at *
      obtain ⟨e, r⟩ := x
      simp only at h1 ⊢
      rw [ih _ r f g (by omega) (by omega) (by omega)]
    · rename_i c p _ _ _ _
      simp only [List.length_cons] at h hf hg
      rw [ih _ p f g (by omega) (by omega) (by omega)]

/-- the meaning of the rest of a pattern -/
def M (m : Mode) (first : Bool) (p t : Bytes) : Prop := ∃ es, readPat m (p.length + 1) first p = some es ∧ Lang m es t

theorem M_iff {first : Bool} {p t : Bytes} {f : Nat} (hf : p.length < f) : M m first p t ↔ ∃ es, readPat m f first p = some es ∧ Lang m es t := by
  unfold M
  rw [read_fuel m p.length first p (p.length + 1) f (Nat.le_refl _) (by omega) hf]

theorem M_map {o : Elem} {first : Bool} {p t : Bytes} {f : Nat} (hf : p.length < f) (P : Bytes → Prop)
    (h : ∀ es, Lang m (o :: es) t ↔ ∃ t', P t' ∧ Lang m es t') :
    (∃ es, (readPat m f first p).map (o :: ·) = some es ∧ Lang m es t) ↔ ∃ t', P t' ∧ M m first p t' := by
  constructor
  · rintro ⟨es, h1, h2⟩
    obtain ⟨es', h3, rfl⟩ := Option.map_eq_some_iff.mp h1
    obtain ⟨t', ht, hl⟩ := (h es').mp h2
    exact ⟨t', ht, (M_iff hf).mpr ⟨es', h3, hl⟩⟩
  · rintro ⟨t', ht, hm⟩
    obtain ⟨es, h3, hl⟩ := (M_iff hf).mp hm
    exact ⟨o :: es, by rw [h3]; rfl, (h es).mpr ⟨t', ht, hl⟩⟩

theorem M_nil {first : Bool} {t : Bytes} : M m first [] t ↔ t = [] := by
  unfold M
  constructor
  · rintro ⟨es, h1, h2⟩
    cases h1
    exact h2
  · rintro rfl
    exact ⟨[], rfl, rfl⟩

theorem one_lang {o : One} {t : Bytes} (es : List Elem) :
    Lang m (.one o :: es) t ↔ ∃ t', (∃ c, t = c :: t' ∧ o.Has m c) ∧ Lang m es t' := by
  constructor
  · rintro ⟨c, t', h1, h2, h3⟩; exact ⟨t', ⟨c, h1, h2⟩, h3⟩
  · rintro ⟨t', ⟨c, h1, h2⟩, h3⟩; exact ⟨c, t', h1, h2, h3⟩

theorem M_esc_end {first : Bool} {t : Bytes} : ¬ M m first [92] t := by
  rintro ⟨es, h1, _⟩
  cases h1

theorem M_esc {first : Bool} {l : UInt8} {p t : Bytes} :
    M m first (92 :: l :: p) t ↔ ∃ t', (∃ c, t = c :: t' ∧ seen m c = l) ∧ M m (decide (l = c!"/")) p t' := by
  rw [M_iff (f := (92 :: l :: p).length + 1) (by simp)]
  unfold readPat
  exact M_map (by simp only [List.length_cons]; omega) _ (fun es => one_lang es)

theorem M_any {first : Bool} {p t : Bytes} :
    M m first (63 :: p) t ↔ ∃ t', (∃ c, t = c :: t' ∧ ¬ (m.pathname = true ∧ c = c!"/")) ∧ M m false p t' := by
  rw [M_iff (f := (63 :: p).length + 1) (by simp)]
  unfold readPat
  exact M_map (by simp only [List.length_cons]; omega) _ (fun es => one_lang es)

theorem M_set_none {first : Bool} {p t : Bytes} (h : readSet p = none) : ¬ M m first (91 :: p) t := by
  rintro ⟨es, h1, _⟩
  unfold readPat at h1
  simp only [h] at h1
  cases h1

theorem M_set {first : Bool} {p t r : Bytes} {o : One} (h : readSet p = some (o, r)) :
    M m first (91 :: p) t ↔ ∃ t', (∃ c, t = c :: t' ∧ o.Has m c) ∧ M m false r t' := by
  rw [M_iff (f := (91 :: p).length + 1) (by simp)]
  unfold readPat
  simp only [h]
  have := readSet_lt h
  exact M_map (by simp only [List.length_cons]; omega) _ (fun es => one_lang es)

theorem M_lit {first : Bool} {c : UInt8} {p t : Bytes} (h : isGlobSpecial c = false) :
    M m first (c :: p) t ↔ ∃ t', (∃ x, t = x :: t' ∧ seen m x = seen m c) ∧ M m (decide (c = c!"/")) p t' := by
  rw [M_iff (f := (c :: p).length + 1) (by simp)]
  simp only [isGlobSpecial, Bool.or_eq_false_iff, decide_eq_false_iff_not] at h
  obtain ⟨⟨⟨h1, h2⟩, h3⟩, h4⟩ := h
  have : readPat m ((c :: p).length + 1) first (c :: p) = (readPat m (c :: p).length (decide (c = c!"/")) p).map (.one (.char (seen m c)) :: ·) := by
    conv => lhs; unfold readPat
    split
    · rename_i e; cases e
    · rename_i e; exact absurd (List.cons.inj e).1 h4
    · rename_i e; exact absurd (List.cons.inj e).1 h2
    · rename_i e; exact absurd (List.cons.inj e).1 h3
    · rename_i e; exact absurd (List.cons.inj e).1 h1
    · rename_i e; cases e; rfl
  rw [this]
  exact M_map (by simp only [List.length_cons]; omega) _ (fun es => one_lang es)

/-- a pattern that does not begin with an asterisk means the same at the beginning of a component and elsewhere -/
theorem M_first {a b : Bool} {p t : Bytes} (h : p.head? ≠ some c!"*") : M m a p t ↔ M m b p t := by
  have : readPat m (p.length + 1) a p = readPat m (p.length + 1) b p := by
    unfold readPat
    split
    · rfl
    · rfl
    · rfl
    · rfl
    · exact absurd rfl h
    · rfl
  unfold M
  rw [this]

theorem M_empty {first : Bool} {p : Bytes} (hp : p ≠ []) (h : p.head? ≠ some c!"*") : ¬ M m first p [] := by
  cases p with
  | nil => exact absurd rfl hp
  | cons c p =>
    intro hm
    by_cases h92 : c = 92
    · subst h92
      cases p with
      | nil => exact M_esc_end hm
      | cons l p =>
        obtain ⟨_, ⟨_, e, _⟩, _⟩ := M_esc.mp hm
        cases e
    · by_cases h63 : c = 63
      · subst h63
        obtain ⟨_, ⟨_, e, _⟩, _⟩ := M_any.mp hm
        cases e
      · by_cases h91 : c = 91
        · subst h91
          cases hr : readSet p with
          | none => exact M_set_none hr hm
          | some x =>
            obtain ⟨o, r⟩ := x
            obtain ⟨_, ⟨_, e, _⟩, _⟩ := (M_set hr).mp hm
            cases e
        · have h42 : c ≠ 42 := by rintro rfl; exact h rfl
          obtain ⟨_, ⟨_, e, _⟩, _⟩ := (M_lit (by simp [isGlobSpecial, h92, h63, h91, h42])).mp hm
          cases e

theorem dropWhile_star_head (p : Bytes) : (p.dropWhile (· == c!"*")).head? ≠ some c!"*" := by
  intro e
  have := dropWhile_head (fun x : UInt8 => x == c!"*") p c!"*" e
  simp at this

/-- what asterisks mean -/
theorem M_star (fl : Flags) {first : Bool} {p t : Bytes} :
    M fl.mode first (42 :: p) t ↔
      (fl.pathname = true ∧ matchSlash fl first p (p.dropWhile (· == c!"*")) = true ∧ (p.dropWhile (· == c!"*")).head? = some c!"/" ∧
        M fl.mode true (p.dropWhile (· == c!"*")).tail t) ∨
      ∃ a s, t = a ++ s ∧ (matchSlash fl first p (p.dropWhile (· == c!"*")) = true ∨ c!"/" ∉ a) ∧ M fl.mode true (p.dropWhile (· == c!"*")) s := by
  have hhead := dropWhile_star_head p
  have hlt := dropStars_lt p
  rw [M_iff (f := (42 :: p).length + 1) (by simp)]
  unfold readPat
  simp only []
  generalize hp2 : p.dropWhile (· == c!"*") = p2 at *
  have hlt2 : p2.length < (42 :: p).length := hlt
  have hstar : ∀ t, (∃ es, (readPat fl.mode (42 :: p).length false p2).map (Elem.star :: ·) = some es ∧ Lang fl.mode es t) ↔
      ∃ a s, t = a ++ s ∧ c!"/" ∉ a ∧ M fl.mode true p2 s := by
    intro t
    rw [M_map hlt2 (fun t' => ∃ a, t = a ++ t' ∧ c!"/" ∉ a) (fun es => by
      constructor
      · rintro ⟨a, t', h1, h2, h3⟩; exact ⟨t', ⟨a, h1, h2⟩, h3⟩
      · rintro ⟨t', ⟨a, h1, h2⟩, h3⟩; exact ⟨a, t', h1, h2, h3⟩)]
    constructor
    · rintro ⟨t', ⟨a, h1, h2⟩, h3⟩; exact ⟨a, t', h1, h2, (M_first hhead).mp h3⟩
    · rintro ⟨a, t', h1, h2, h3⟩; exact ⟨t', ⟨a, h1, h2⟩, (M_first hhead).mp h3⟩
  have hany : ∀ t, (∃ es, (readPat fl.mode (42 :: p).length false p2).map (Elem.anything :: ·) = some es ∧ Lang fl.mode es t) ↔
      ∃ a s, t = a ++ s ∧ M fl.mode true p2 s := by
    intro t
    rw [M_map hlt2 (fun t' => ∃ a, t = a ++ t') (fun es => by
      constructor
      · rintro ⟨a, t', h1, h3⟩; exact ⟨t', ⟨a, h1⟩, h3⟩
      · rintro ⟨t', ⟨a, h1⟩, h3⟩; exact ⟨a, t', h1, h3⟩)]
    constructor
    · rintro ⟨t', ⟨a, h1⟩, h3⟩; exact ⟨a, t', h1, (M_first hhead).mp h3⟩
    · rintro ⟨a, t', h1, h3⟩; exact ⟨t', ⟨a, h1⟩, (M_first hhead).mp h3⟩
  unfold readStars matchSlash
  by_cases hpn : fl.pathname = true
  case neg =>
    have : fl.mode.pathname = false := by simpa [Flags.mode] using hpn
    have hpf : fl.pathname = false := by simpa using hpn
    simp only [this, hpf, Bool.not_false, if_true, Bool.false_eq_true, false_and, false_or, true_or, true_and]
    exact hany t
  have hpn' : fl.mode.pathname = true := by simpa [Flags.mode] using hpn
  simp only [hpn, hpn', Bool.not_true, Bool.false_eq_true, if_false, true_and]
  by_cases hsp : first = true ∧ p.head? = some c!"*"
  case neg =>
    rw [if_neg (by simpa using hsp)]
    have hf : (decide (p.head? = some c!"*") && first) = false := by
      cases first
      · simp
      · simpa using hsp
    simp only [hf, Bool.false_and, Bool.false_eq_true, false_and, false_or]
    exact hstar t
  rw [if_pos (by simpa using hsp)]
  have hf : (decide (p.head? = some c!"*") && first) = true := by simpa using ⟨hsp.2, hsp.1⟩
  simp only [hf, Bool.true_and]
  split
  · -- trailing
    simp only [decide_true, Bool.true_or, List.head?_nil, reduceCtorEq, false_and, and_false, false_or, true_or, true_and]
    exact hany t
  · -- slash
    rename_i r'
    simp only [List.head?_cons, decide_true, Bool.or_true, Bool.true_or, true_and, List.tail_cons, true_or]
    rw [show (∃ es, (readPat fl.mode (42 :: p).length true r').map (Elem.dirs :: ·) = some es ∧ Lang fl.mode es t) ↔ _ from
      M_map (by simp only [List.length_cons] at hlt2 ⊢; omega) (fun t' => t' = t ∨ ∃ a, t = a ++ c!"/" :: t') (fun es => by
        constructor
        · rintro (h | ⟨a, t', h1, h2⟩)
          · exact ⟨t, .inl rfl, h⟩
          · exact ⟨t', .inr ⟨a, h1⟩, h2⟩
        · rintro ⟨t', rfl | ⟨a, h1⟩, h2⟩
          · exact .inl h2
          · exact .inr ⟨a, t', h1, h2⟩)]
    have hsl : ∀ s, M fl.mode true (47 :: r') s ↔ ∃ t', s = c!"/" :: t' ∧ M fl.mode true r' t' := by
      intro s
      rw [M_lit (by decide)]
      have hx : ∀ x, seen fl.mode x = seen fl.mode 47 ↔ x = c!"/" := by
        intro x
        have h1 : ∀ x : UInt8, lower x = lower 47 ↔ x = c!"/" := by unfold lower; decide +kernel
        unfold seen
        split
        · exact h1 x
        · rfl
      constructor
      · rintro ⟨t', ⟨x, h1, h2⟩, h3⟩; exact ⟨t', by rw [h1, (hx x).mp h2], h3⟩
      · rintro ⟨t', h1, h3⟩; exact ⟨t', ⟨_, h1, rfl⟩, h3⟩
    constructor
    · rintro ⟨t', rfl | ⟨a, h1⟩, h2⟩
      · exact .inl h2
      · exact .inr ⟨a, _, h1, (hsl _).mpr ⟨t', rfl, h2⟩⟩
    · rintro (h | ⟨a, s, h1, h2⟩)
      · exact ⟨t, .inl rfl, h⟩
      · obtain ⟨t', rfl, h3⟩ := (hsl s).mp h2
        exact ⟨t', .inr ⟨a, h1⟩, h3⟩
  · -- escaped slash
    rename_i r'
    simp only [List.head?_cons, List.tail_cons, decide_true, Bool.and_true, Bool.or_true, true_and, true_or]
    have : (some (92 : UInt8) = some c!"/") = False := by simp
    simp only [this, false_and, false_or]
    exact hany t
  · -- not a whole component
    rename_i h1 h2 h3
    have hms : (decide (p2 = []) || decide (p2.head? = some c!"/") || (decide (p2.head? = some c!"\\") && decide (p2.tail.head? = some c!"/"))) = false := by
      cases p2 with
      | nil => exact absurd rfl (h1 · )
      | cons a p2 =>
        have h2' : a ≠ 47 := fun e => h2 _ (by rw [e])
        by_cases ha : a = 92
        · subst ha
          cases p2 with
          | nil => rfl
          | cons b p2 =>
            have : b ≠ 47 := fun e => h3 _ (by rw [e])
            simp [this]
        · simp [h2', ha]
    simp only [hms, Bool.false_eq_true, false_and, false_or]
    exact hstar t

end Verif.Wildmatch
