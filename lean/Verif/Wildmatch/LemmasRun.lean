import Verif.Wildmatch.LemmasRead
/-! # The matcher follows the meaning -/
namespace Verif.Wildmatch
open Spec

/-! ## One step of `dowild` -/

theorem fold_special (fl : Flags) {c : UInt8} (h : isGlobSpecial c = true) : fold fl c = c := by
  have h2 : ∀ c : UInt8, isGlobSpecial c = true → isUpper c = false := by unfold isGlobSpecial isUpper; decide +kernel
  unfold fold
  rw [h2 c h]; simp

theorem fold_lit (fl : Flags) {c : UInt8} (h : isGlobSpecial c = false) : isGlobSpecial (fold fl c) = false := by
  have h2 : ∀ c : UInt8, isGlobSpecial c = false → isGlobSpecial (toLower c) = false := by
    unfold isGlobSpecial toLower isUpper; decide +kernel
  unfold fold
  split
  · exact h2 c h
  · exact h

theorem fold_slash (fl : Flags) {c : UInt8} : fold fl c = c!"/" ↔ c = c!"/" := by
  have h : ∀ x : UInt8, toLower x = c!"/" ↔ x = c!"/" := by unfold toLower isUpper; decide +kernel
  unfold fold
  split
  · exact h c
  · rfl

theorem not_special {c : UInt8} (h : isGlobSpecial c = false) : c ≠ 42 ∧ c ≠ 63 ∧ c ≠ 91 ∧ c ≠ 92 := by
  simp only [isGlobSpecial, Bool.or_eq_false_iff, decide_eq_false_iff_not] at h
  exact ⟨h.1.1.1, h.1.1.2, h.1.2, h.2⟩

theorem dowild_nil (fl : Flags) (first : Bool) (t : Bytes) : dowild fl first [] t = if t = [] then .ok else .noMatch := by
  rw [dowild]

theorem dowild_empty (fl : Flags) (first : Bool) {c : UInt8} (p : Bytes) (h : c ≠ c!"*") : dowild fl first (c :: p) [] = .abortAll := by
  rw [dowild]; simp [h]

theorem dowild_esc_end (fl : Flags) (first : Bool) (x : UInt8) (t : Bytes) : dowild fl first [92] (x :: t) = .noMatch := by
  rw [dowild]; simp [fold_special fl (c := 92) rfl]

theorem dowild_esc (fl : Flags) (first : Bool) (l : UInt8) (p : Bytes) (x : UInt8) (t : Bytes) :
    dowild fl first (92 :: l :: p) (x :: t) = if fold fl x ≠ l then .noMatch else dowild fl (l = c!"/") p t := by
  rw [dowild]; simp [fold_special fl (c := 92) rfl]

theorem dowild_any (fl : Flags) (first : Bool) (p : Bytes) (x : UInt8) (t : Bytes) :
    dowild fl first (63 :: p) (x :: t) = if fl.pathname && fold fl x = c!"/" then .noMatch else dowild fl false p t := by
  rw [dowild]; simp [fold_special fl (c := 63) rfl]

theorem dowild_set_none (fl : Flags) (first : Bool) {p : Bytes} {x : UInt8} {t : Bytes} (h : bracket fl (fold fl x) p = none) :
    dowild fl first (91 :: p) (x :: t) = .abortAll := by
  rw [dowild]
  simp only [fold_special fl (c := 91) rfl, reduceCtorEq, decide_false, Bool.false_and, Bool.false_eq_true, if_false, List.headD_cons]
  simp only [show ((91 : UInt8) = 92) = False by simp, show ((91 : UInt8) = 63) = False by simp, show ((91 : UInt8) = 42) = False by simp, if_false, if_true]
  split
  · rfl
  · rename_i e; rw [h] at e; cases e

theorem dowild_set (fl : Flags) (first : Bool) {p r : Bytes} {x : UInt8} {t : Bytes} {m neg : Bool} (h : bracket fl (fold fl x) p = some (m, neg, r)) :
    dowild fl first (91 :: p) (x :: t) = if m = neg || (fl.pathname && fold fl x = c!"/") then .noMatch else dowild fl false r t := by
  rw [dowild]
  simp only [fold_special fl (c := 91) rfl, reduceCtorEq, decide_false, Bool.false_and, Bool.false_eq_true, if_false, List.headD_cons, List.tail_cons]
  simp only [show ((91 : UInt8) = 92) = False by simp, show ((91 : UInt8) = 63) = False by simp, show ((91 : UInt8) = 42) = False by simp, if_false, if_true]
  split
  · rename_i e; rw [h] at e; cases e
  · rename_i e; rw [h] at e; cases e; rfl

theorem dowild_lit (fl : Flags) (first : Bool) {c : UInt8} (p : Bytes) (x : UInt8) (t : Bytes) (h : isGlobSpecial c = false) :
    dowild fl first (c :: p) (x :: t) = if fold fl x ≠ fold fl c then .noMatch else dowild fl (c = c!"/") p t := by
  obtain ⟨h1, h2, h3, h4⟩ := not_special (fold_lit fl h)
  rw [dowild]; simp [h1, h2, h3, h4]

theorem dowild_star (fl : Flags) (first : Bool) (p t : Bytes) :
    dowild fl first (42 :: p) t =
      if fl.pathname && matchSlash fl first p (p.dropWhile (· == c!"*")) && (p.dropWhile (· == c!"*")).head? = some c!"/" &&
          dowild fl true (p.dropWhile (· == c!"*")).tail t = .ok then .ok
      else if p.dropWhile (· == c!"*") = [] then
        if !matchSlash fl first p (p.dropWhile (· == c!"*")) && t.contains c!"/" then .noMatch else .ok
      else if !matchSlash fl first p (p.dropWhile (· == c!"*")) && (p.dropWhile (· == c!"*")).head? = some c!"/" then
        if !t.contains c!"/" then .noMatch else dowild fl true (p.dropWhile (· == c!"*")).tail (t.dropWhile (· != c!"/")).tail
      else starLoop fl (matchSlash fl first p (p.dropWhile (· == c!"*"))) (p.dropWhile (· == c!"*")) (fun s => dowild fl true (p.dropWhile (· == c!"*")) s) t := by
  rw [dowild]
  simp only [fold_special fl (c := 42) rfl]
  simp only [show ((42 : UInt8) = 92) = False by simp, show ((42 : UInt8) = 63) = False by simp, ne_eq, not_true_eq_false, decide_false, Bool.and_false,
    Bool.false_eq_true, if_false, if_true]

theorem dowild_first (fl : Flags) (a b : Bool) {p t : Bytes} (h : p.head? ≠ some c!"*") : dowild fl a p t = dowild fl b p t := by
  cases p with
  | nil => rw [dowild_nil, dowild_nil]
  | cons c p =>
    have hc : c ≠ 42 := fun e => h (by rw [e]; rfl)
    cases t with
    | nil => rw [dowild_empty fl a p hc, dowild_empty fl b p hc]
    | cons x t =>
      by_cases h92 : c = 92
      · subst h92
        cases p with
        | nil => rw [dowild_esc_end, dowild_esc_end]
        | cons l p => rw [dowild_esc, dowild_esc]
      · by_cases h63 : c = 63
        · subst h63; rw [dowild_any, dowild_any]
        · by_cases h91 : c = 91
          · subst h91
            cases hb : bracket fl (fold fl x) p with
            | none => rw [dowild_set_none fl a hb, dowild_set_none fl b hb]
            | some y => obtain ⟨m, neg, r⟩ := y; rw [dowild_set fl a hb, dowild_set fl b hb]
          · have : isGlobSpecial c = false := by simp [isGlobSpecial, h92, h63, h91, hc]
            rw [dowild_lit fl a p x t this, dowild_lit fl b p x t this]

/-! ## What the results mean -/

/-- what a result of `dowild` says about the meaning of the pattern -/
def Inv (fl : Flags) (first : Bool) (p text : Bytes) : R → Prop
  | .ok => M fl.mode first p text
  | .noMatch => ¬ M fl.mode first p text
  | .abortAll => ∀ a s, text = a ++ s → (first = true → a = [] ∨ a.getLast? = some c!"/") → ¬ M fl.mode first p s
  | .abortToStarStar => fl.pathname = true ∧ ∀ a s, text = a ++ s → c!"/" ∉ a → (first = true → a = []) → ¬ M fl.mode first p s

theorem Inv.iff {fl : Flags} {first : Bool} {p text : Bytes} {r : R} (h : Inv fl first p text r) : r = .ok ↔ M fl.mode first p text := by
  cases r with
  | ok => exact ⟨fun _ => h, fun _ => rfl⟩
  | noMatch => exact ⟨(fun e => (by cases e)), fun hm => absurd hm h⟩
  | abortAll => exact ⟨(fun e => (by cases e)), fun hm => absurd hm (h [] text rfl (fun _ => .inl rfl))⟩
  | abortToStarStar => exact ⟨(fun e => (by cases e)), fun hm => absurd hm (h.2 [] text rfl (by simp) (fun _ => rfl))⟩

/-- a step over one byte -/
theorem Inv.step {fl : Flags} {first first' : Bool} {p p1 : Bytes} {H : UInt8 → Prop} {x : UInt8} {t : Bytes} {r : R}
    (hM : ∀ s, M fl.mode first p s ↔ ∃ s', (∃ c, s = c :: s' ∧ H c) ∧ M fl.mode first' p1 s')
    (hx : H x)
    (hf : first' = true → ∀ y, H y → y = c!"/")
    (hs : fl.pathname = true → H c!"/" → first' = true)
    (h : Inv fl first' p1 t r) : Inv fl first p (x :: t) r := by
  cases r with
  | ok => exact (hM _).mpr ⟨t, ⟨x, rfl, hx⟩, h⟩
  | noMatch =>
    intro hm
    obtain ⟨s', ⟨c, e, _⟩, h2⟩ := (hM _).mp hm
    cases e
    exact h h2
  | abortAll =>
    intro a s e _ hm
    obtain ⟨s', ⟨c, rfl, hc⟩, h2⟩ := (hM _).mp hm
    have e' : t = (a ++ [c]).tail ++ s' := by
      cases a with
      | nil => cases e; rfl
      | cons y a => cases e; simp
    refine h _ _ e' ?_ h2
    intro h1
    cases a with
    | nil => exact .inl rfl
    | cons y a => right; simp [hf h1 c hc]
  | abortToStarStar =>
    refine ⟨h.1, ?_⟩
    intro a s e ha _ hm
    obtain ⟨s', ⟨c, rfl, hc⟩, h2⟩ := (hM _).mp hm
    cases a with
    | nil =>
      cases e
      exact h.2 [] t rfl (by simp) (fun _ => rfl) h2
    | cons y a =>
      cases e
      have hcs : first' = false := by
        cases hf' : first' with
        | false => rfl
        | true => exact absurd (hf hf' x hx) (fun e => ha (by simp [e]))
      refine h.2 (a ++ [c]) s' (by simp) ?_ (fun e => absurd e (by simp [hcs])) h2
      simp only [List.mem_append, List.mem_singleton]
      rintro (h3 | h3)
      · exact ha (List.mem_cons_of_mem _ h3)
      · have := hs h.1 (h3 ▸ hc)
        rw [hcs] at this; cases this

/-! ## The loop after an asterisk -/

/-- what a result of the loop says -/
def LoopInv (fl : Flags) (ms : Bool) (p text : Bytes) : R → Prop
  | .ok => ∃ a s, text = a ++ s ∧ (ms = true ∨ c!"/" ∉ a) ∧ M fl.mode true p s
  | .noMatch => ¬ ∃ a s, text = a ++ s ∧ (ms = true ∨ c!"/" ∉ a) ∧ M fl.mode true p s
  | .abortAll => ∀ a s, text = a ++ s → ¬ M fl.mode true p s
  | .abortToStarStar => ms = false ∧ ∀ a s, text = a ++ s → c!"/" ∉ a → ¬ M fl.mode true p s

/-- a literal at the head must be there -/
theorem lit_head {fl : Flags} {p : Bytes} (hp : p ≠ []) (hg : isGlobSpecial (p.headD 0) = false) {x : UInt8} {s : Bytes}
    (hm : M fl.mode true p (x :: s)) : fold fl x = fold fl (p.headD 0) := by
  cases p with
  | nil => exact absurd rfl hp
  | cons c p =>
    obtain ⟨_, ⟨y, e, h⟩, _⟩ := (M_lit hg).mp hm
    cases e
    rw [fold_seen, fold_seen]; exact h

theorem skipTo_spec (fl : Flags) (ms : Bool) (pc : UInt8) (text : Bytes) :
    ∃ b, text = b ++ skipTo fl ms pc text ∧ (∀ x ∈ b, fold fl x ≠ pc) ∧ (ms = true ∨ c!"/" ∉ b) ∧
      (∀ x s, skipTo fl ms pc text = x :: s → fold fl x = pc ∨ (ms = false ∧ x = c!"/")) := by
  induction text with
  | nil => exact ⟨[], rfl, by simp, by simp, by simp [skipTo]⟩
  | cons t ts ih =>
    unfold skipTo
    by_cases h1 : (!ms && decide (t = c!"/")) = true
    · rw [if_pos h1]
      simp only [Bool.and_eq_true, Bool.not_eq_true', decide_eq_true_eq] at h1
      exact ⟨[], rfl, by simp, by simp, fun x s e => by cases e; exact .inr h1⟩
    · rw [if_neg h1]
      by_cases h2 : fold fl t = pc
      · rw [if_pos h2]
        exact ⟨[], rfl, by simp, by simp, fun x s e => by cases e; exact .inl h2⟩
      · rw [if_neg h2]
        obtain ⟨b, e, h3, h4, h5⟩ := ih
        refine ⟨t :: b, by simp [← e], ?_, ?_, h5⟩
        · intro x hx
          rcases List.mem_cons.mp hx with rfl | hx
          · exact h2
          · exact h3 x hx
        · rcases h4 with h4 | h4
          · exact .inl h4
          · by_cases hms : ms = true
            · exact .inl hms
            · right
              intro hc
              rcases List.mem_cons.mp hc with hc | hc
              · exact h1 (by simp [hms, hc])
              · exact h4 hc

theorem advance_spec (fl : Flags) (ms : Bool) {p : Bytes} (hp : p ≠ []) (text : Bytes) :
    ∃ b, text = b ++ advance fl ms p text ∧ (ms = true ∨ c!"/" ∉ b) ∧
      (∀ a s, text = a ++ s → a.length < b.length → ¬ M fl.mode true p s) ∧
      (isGlobSpecial (p.headD 0) = false → ∀ x s, advance fl ms p text = x :: s → fold fl x = fold fl (p.headD 0) ∨ (ms = false ∧ x = c!"/")) := by
  unfold advance
  cases hg : isGlobSpecial (p.headD 0) with
  | true => exact ⟨[], rfl, by simp, by simp, by simp⟩
  | false =>
    simp only [Bool.not_false, if_true]
    obtain ⟨b, h1, h2, h3, h4⟩ := skipTo_spec fl ms (fold fl (p.headD 0)) text
    refine ⟨b, h1, h3, ?_, fun _ => h4⟩
    intro a s e hl hm
    rw [h1] at e
    rw [List.append_eq_append_iff] at e
    rcases e with ⟨c, e1, e2⟩ | ⟨c, e1, e2⟩
    · subst e1; simp at hl; omega
    · subst e1
      cases c with
      | nil => simp at hl
      | cons x c =>
        subst e2
        exact h2 x (by simp) (lit_head hp hg hm)

theorem starLoop_inv (fl : Flags) (ms : Bool) {p : Bytes} (hp : p ≠ []) (hh : p.head? ≠ some c!"*") (hms : ms = false → fl.pathname = true)
    (f : Bytes → R) (hf : ∀ s, Inv fl false p s (f s)) (n : Nat) : ∀ text : Bytes, text.length ≤ n → LoopInv fl ms p text (starLoop fl ms p f text) := by
  have hft : ∀ s, M fl.mode false p s ↔ M fl.mode true p s := fun s => M_first hh
  induction n with
  | zero =>
    intro text hl
    have : text = [] := List.length_eq_zero_iff.mp (by omega)
    subst this
    rw [starLoop]
    intro a s e
    have : s = [] := by
      have := (List.append_eq_nil_iff.mp e.symm).2; exact this
    subst this
    exact M_empty hp hh
  | succ n ih =>
    intro text hl
    cases text with
    | nil =>
      rw [starLoop]
      intro a s e
      have : s = [] := (List.append_eq_nil_iff.mp e.symm).2
      subst this
      exact M_empty hp hh
    | cons t ts =>
      rw [starLoop]
      obtain ⟨b, h1, h2, h3, h4⟩ := advance_spec fl ms hp (t :: ts)
      have hle := advance_le fl ms p (t :: ts)
      generalize advance fl ms p (t :: ts) = adv at *
      -- where a start in the text can be
      have hpos : ∀ a s, t :: ts = a ++ s → M fl.mode true p s → ∃ c, a = b ++ c ∧ adv = c ++ s := by
        intro a s e hm
        have hlen : ¬ a.length < b.length := fun hl => h3 a s e hl hm
        rw [h1, List.append_eq_append_iff] at e
        rcases e with ⟨c, e1, e2⟩ | ⟨c, e1, e2⟩
        · exact ⟨c, e1, e2⟩
        · have : c = [] := by
            rw [e1, List.length_append] at hlen
            exact List.length_eq_zero_iff.mp (by omega)
          subst this
          exact ⟨[], by simpa using e1.symm, by simpa using e2.symm⟩
      split
      · -- nothing left
        rintro ⟨a, s, e, _, hm⟩
        obtain ⟨c, _, e2⟩ := hpos a s e hm
        have : s = [] := (List.append_eq_nil_iff.mp e2.symm).2
        subst this
        exact M_empty hp hh hm
      · rename_i t' ts'
        by_cases hlit : (!isGlobSpecial (p.headD 0) && decide (fold fl t' ≠ fold fl (p.headD 0))) = true
        · rw [if_pos hlit]
          simp only [Bool.and_eq_true, Bool.not_eq_true', decide_eq_true_eq] at hlit
          rintro ⟨a, s, e, hsl, hm⟩
          obtain ⟨c, e1, e2⟩ := hpos a s e hm
          cases c with
          | nil =>
            simp only [List.nil_append] at e2
            subst e2
            exact hlit.2 (lit_head hp hlit.1 hm)
          | cons y c =>
            simp only [List.cons_append, List.cons.injEq] at e2
            obtain ⟨rfl, _⟩ := e2
            rcases h4 hlit.1 t' ts' rfl with h5 | ⟨h5, h6⟩
            · exact hlit.2 h5
            · rcases hsl with hsl | hsl
              · rw [h5] at hsl; cases hsl
              · exact hsl (by rw [e1, h6]; simp)
        · rw [if_neg hlit]
          have hI := hf (t' :: ts')
          have hlen : ts'.length ≤ n := by
            simp only [List.length_cons] at hl hle; omega
          have ihr := ih ts' hlen
          -- continuing behind a place where it does not match
          have hcont : ¬ M fl.mode true p (t' :: ts') → (ms = true ∨ t' ≠ c!"/") → LoopInv fl ms p (t :: ts) (starLoop fl ms p f ts') := by
            intro hno hsl
            have hpos' : ∀ a s, t :: ts = a ++ s → M fl.mode true p s → ∃ c, a = b ++ t' :: c ∧ ts' = c ++ s := by
              intro a s e hm
              obtain ⟨c, e1, e2⟩ := hpos a s e hm
              cases c with
              | nil =>
                simp only [List.nil_append] at e2
                subst e2
                exact absurd hm hno
              | cons y c =>
                simp only [List.cons_append, List.cons.injEq] at e2
                obtain ⟨rfl, e3⟩ := e2
                exact ⟨c, e1, e3⟩
            generalize starLoop fl ms p f ts' = r at ihr
            cases r with
            | ok =>
              obtain ⟨a, s, e, hs, hm⟩ := ihr
              refine ⟨b ++ t' :: a, s, by rw [h1, e]; simp, ?_, hm⟩
              rcases hs with hs | hs
              · exact .inl hs
              · rcases h2 with h2 | h2
                · exact .inl h2
                · rcases hsl with h6 | h6
                  · exact .inl h6
                  · right; simp [h2, hs, Ne.symm h6]
            | noMatch =>
              rintro ⟨a, s, e, hs, hm⟩
              obtain ⟨c, e1, e2⟩ := hpos' a s e hm
              refine ihr ⟨c, s, e2, ?_, hm⟩
              rcases hs with hs | hs
              · exact .inl hs
              · right; intro hc; exact hs (by rw [e1]; simp [hc])
            | abortAll =>
              intro a s e hm
              obtain ⟨c, e1, e2⟩ := hpos' a s e hm
              exact ihr c s e2 hm
            | abortToStarStar =>
              refine ⟨ihr.1, ?_⟩
              intro a s e hs hm
              obtain ⟨c, e1, e2⟩ := hpos' a s e hm
              exact ihr.2 c s e2 (fun hc => hs (by rw [e1]; simp [hc])) hm
          generalize f (t' :: ts') = r at hI
          cases r with
          | ok =>
            simp only [ne_eq, reduceCtorEq, not_false_eq_true, decide_true, Bool.or_true, if_true]
            exact ⟨b, t' :: ts', h1, h2, (hft _).mp hI⟩
          | noMatch =>
            have hno : ¬ M fl.mode true p (t' :: ts') := fun h => hI ((hft _).mpr h)
            simp only []
            split
            · rename_i hsl
              simp only [Bool.and_eq_true, Bool.not_eq_true', decide_eq_true_eq] at hsl
              refine ⟨hsl.1, ?_⟩
              intro a s e hs hm
              obtain ⟨c, e1, e2⟩ := hpos a s e hm
              cases c with
              | nil =>
                simp only [List.nil_append] at e2
                subst e2
                exact hno hm
              | cons y c =>
                simp only [List.cons_append, List.cons.injEq] at e2
                obtain ⟨rfl, e3⟩ := e2
                exact hs (by rw [e1, hsl.2]; simp)
            · rename_i hsl
              apply hcont hno
              cases ms
              · right; simpa using hsl
              · exact .inl rfl
          | abortAll =>
            simp only [ne_eq, reduceCtorEq, not_false_eq_true, decide_true, Bool.or_true, if_true]
            intro a s e hm
            obtain ⟨c, e1, e2⟩ := hpos a s e hm
            exact hI c s e2 (fun e => absurd e (by simp)) ((hft _).mpr hm)
          | abortToStarStar =>
            cases ms with
            | false =>
              simp only [Bool.not_false, Bool.true_or, if_true]
              refine ⟨rfl, ?_⟩
              intro a s e hs hm
              obtain ⟨c, e1, e2⟩ := hpos a s e hm
              exact hI.2 c s e2 (fun hc => hs (by rw [e1]; simp [hc])) (fun e => absurd e (by simp)) ((hft _).mpr hm)
            | true =>
              simp only [ne_eq, not_true_eq_false, decide_false, Bool.not_true, Bool.or_self, Bool.false_eq_true, if_false]
              exact hcont (fun h => hI.2 [] _ rfl (by simp) (fun _ => rfl) ((hft _).mpr h)) (.inl rfl)

/-! ## The whole -/

theorem M_slash {m : Mode} {first : Bool} {p s : Bytes} : M m first (c!"/" :: p) s ↔ ∃ s', s = c!"/" :: s' ∧ M m true p s' := by
  rw [M_lit (by decide)]
  have hx : ∀ x, seen m x = seen m 47 ↔ x = c!"/" := by
    intro x
    have h1 : ∀ x : UInt8, lower x = lower 47 ↔ x = c!"/" := by unfold lower; decide +kernel
    unfold seen
    split
    · exact h1 x
    · rfl
  constructor
  · rintro ⟨t', ⟨x, h1, h2⟩, h3⟩; exact ⟨t', by rw [h1, (hx x).mp h2], h3⟩
  · rintro ⟨t', h1, h3⟩; exact ⟨t', ⟨_, h1, rfl⟩, h3⟩

/-- the text up to the first slash -/
theorem first_slash (t : Bytes) (h : c!"/" ∈ t) : ∃ b, t = b ++ c!"/" :: (t.dropWhile (· != c!"/")).tail ∧ c!"/" ∉ b := by
  induction t with
  | nil => simp at h
  | cons x t ih =>
    by_cases hx : x = c!"/"
    · subst hx; exact ⟨[], by simp, by simp⟩
    · obtain ⟨b, e, hb⟩ := ih (by simpa [Ne.symm hx] using h)
      refine ⟨x :: b, ?_, by simp [hb, Ne.symm hx]⟩
      have : (x != c!"/") = true := by simpa using hx
      simp only [List.dropWhile_cons, this, if_true, List.cons_append]
      rw [← e]

theorem dowild_inv (fl : Flags) (n : Nat) : ∀ (first : Bool) (p text : Bytes), p.length ≤ n → Inv fl first p text (dowild fl first p text) := by
  induction n with
  | zero =>
    intro first p text hl
    have : p = [] := List.length_eq_zero_iff.mp (by omega)
    subst this
    rw [dowild_nil]
    split
    · exact M_nil.mpr ‹_›
    · exact fun hm => absurd (M_nil.mp hm) ‹_›
  | succ n ih =>
    intro first p text hl
    cases p with
    | nil =>
      rw [dowild_nil]
      split
      · exact M_nil.mpr ‹_›
      · exact fun hm => absurd (M_nil.mp hm) ‹_›
    | cons c p =>
      have hlp : p.length ≤ n := by simp only [List.length_cons] at hl; omega
      by_cases h42 : c = 42
      · subst h42
        rw [dowild_star]
        have hlt := dropStars_lt p
        have hhead := dropWhile_star_head p
        have hM : ∀ t, _ ↔ _ := fun t => M_star fl (first := first) (p := p) (t := t)
        have hms : matchSlash fl first p (p.dropWhile (· == c!"*")) = false → fl.pathname = true := by
          unfold matchSlash
          split
          · intro h; cases h
          · rename_i h; intro _; simpa using h
        have hmf : matchSlash fl first p (p.dropWhile (· == c!"*")) = true → fl.pathname = true → first = true := by
          unfold matchSlash
          intro h h2
          rw [if_neg (by simp [h2])] at h
          simp only [Bool.and_eq_true] at h
          exact h.1.2
        generalize p.dropWhile (· == c!"*") = p2 at *
        generalize matchSlash fl first p p2 = ms at *
        have hl2 : p2.length ≤ n := by simp only [List.length_cons] at hlt hl; omega
        have hl3 : p2.tail.length ≤ n := by simp only [List.length_tail]; omega
        have ih1 := (ih true p2.tail text hl3).iff
        split
        · rename_i h
          simp only [Bool.and_eq_true, decide_eq_true_eq] at h
          exact (hM text).mpr (.inl ⟨h.1.1.1, h.1.1.2, h.1.2, ih1.mp h.2⟩)
        · rename_i hno1
          have hno : ¬ (fl.pathname = true ∧ ms = true ∧ p2.head? = some c!"/" ∧ M fl.mode true p2.tail text) := by
            rintro ⟨a, b, c, d⟩
            exact hno1 (by simp [a, b, c, ih1.mpr d])
          split
          · rename_i hnil
            subst hnil
            split
            · rename_i h
              simp only [Bool.and_eq_true, Bool.not_eq_true', List.contains_iff_mem] at h
              intro hm
              rcases (hM text).mp hm with h' | ⟨a, s, e, h1, h2⟩
              · exact hno h'
              · rw [M_nil] at h2
                subst h2
                simp only [List.append_nil] at e
                subst e
                rcases h1 with h1 | h1
                · rw [h.1] at h1; cases h1
                · exact h1 h.2
            · rename_i h
              refine (hM text).mpr (.inr ⟨text, [], by simp, ?_, M_nil.mpr rfl⟩)
              cases ms
              · right; simpa using h
              · exact .inl rfl
          · rename_i hne
            split
            · rename_i h
              simp only [Bool.and_eq_true, Bool.not_eq_true', decide_eq_true_eq] at h
              obtain ⟨h1, h2⟩ := h
              subst h1
              have hp2 : p2 = c!"/" :: p2.tail := by
                cases p2 with
                | nil => exact absurd rfl hne
                | cons y p2 => simp only [List.head?_cons, Option.some.injEq] at h2; rw [h2]; rfl
              -- what it means
              have hM' : ∀ t, M fl.mode first (42 :: p) t ↔ ∃ a s, t = a ++ c!"/" :: s ∧ c!"/" ∉ a ∧ M fl.mode true p2.tail s := by
                intro t
                rw [hM t]
                constructor
                · rintro (h | ⟨a, s, e, h3, h4⟩)
                  · simp at h
                  · rw [hp2, M_slash] at h4
                    obtain ⟨s', rfl, h5⟩ := h4
                    exact ⟨a, s', e, by simpa using h3, h5⟩
                · rintro ⟨a, s, e, h3, h4⟩
                  exact .inr ⟨a, _, e, .inr h3, by rw [hp2, M_slash]; exact ⟨s, rfl, h4⟩⟩
              split
              · rename_i h
                intro hm
                obtain ⟨a, s, e, _, _⟩ := (hM' _).mp hm
                exact absurd (show c!"/" ∈ text by rw [e]; simp) (by simpa using h)
              · rename_i h
                have hmem : c!"/" ∈ text := by simpa using h
                obtain ⟨b, e, hb⟩ := first_slash text hmem
                have hI := ih true p2.tail (text.dropWhile (· != c!"/")).tail hl3
                generalize (text.dropWhile (· != c!"/")).tail = t2 at *
                -- a later slash
                have hpos : ∀ a s, text = a ++ c!"/" :: s → ∃ a', t2 = a' ++ s ∧ (a' = [] ∨ a'.getLast? = some c!"/") ∧ (c!"/" ∉ a → a' = []) := by
                  intro a s e2
                  rw [e, List.append_eq_append_iff] at e2
                  rcases e2 with ⟨c, e3, e4⟩ | ⟨c, e3, e4⟩
                  · cases c with
                    | nil =>
                      simp only [List.nil_append, List.cons.injEq, true_and] at e4
                      exact ⟨[], by simp [e4], .inl rfl, fun _ => rfl⟩
                    | cons y c =>
                      simp only [List.cons_append, List.cons.injEq] at e4
                      refine ⟨c ++ [c!"/"], by simp [e4.2], .inr (by simp), ?_⟩
                      intro hn
                      exact absurd (show c!"/" ∈ a by rw [e3, ← e4.1]; simp) hn
                  · cases c with
                    | nil =>
                      simp only [List.nil_append, List.cons.injEq, true_and] at e4
                      exact ⟨[], by simp [e4], .inl rfl, fun _ => rfl⟩
                    | cons y c =>
                      simp only [List.cons_append, List.cons.injEq] at e4
                      exact absurd (show c!"/" ∈ b by rw [e3, ← e4.1]; simp) hb
                generalize dowild fl true p2.tail t2 = r at hI
                cases r with
                | ok => exact (hM' _).mpr ⟨b, t2, e, hb, hI⟩
                | noMatch =>
                  intro hm
                  obtain ⟨a, s, e2, h3, h4⟩ := (hM' _).mp hm
                  obtain ⟨a', e3, _, h5⟩ := hpos a s e2
                  have := h5 h3
                  subst this
                  simp only [List.nil_append] at e3
                  subst e3
                  exact hI h4
                | abortAll =>
                  intro a s e2 _ hm
                  obtain ⟨a1, s1, e3, h3, h4⟩ := (hM' _).mp hm
                  subst e3
                  obtain ⟨a', e3, h5, _⟩ := hpos (a ++ a1) s1 (by rw [e2]; simp)
                  exact hI a' s1 e3 (fun _ => h5) h4
                | abortToStarStar =>
                  refine ⟨hI.1, ?_⟩
                  intro a s e2 ha _ hm
                  obtain ⟨a1, s1, e3, h3, h4⟩ := (hM' _).mp hm
                  subst e3
                  obtain ⟨a', e3, _, h5⟩ := hpos (a ++ a1) s1 (by rw [e2]; simp)
                  have := h5 (by simp [ha, h3])
                  subst this
                  exact hI.2 [] s1 e3 (by simp) (fun _ => rfl) h4
            · rename_i hns
              have hL := starLoop_inv fl ms hne hhead hms (fun s => dowild fl true p2 s)
                (fun s => by rw [dowild_first fl true false hhead]; exact ih false p2 s hl2) text.length text (Nat.le_refl _)
              generalize starLoop fl ms p2 (fun s => dowild fl true p2 s) text = r at hL
              cases r with
              | ok => exact (hM _).mpr (.inr hL)
              | noMatch =>
                intro hm
                rcases (hM _).mp hm with h | h
                · exact hno h
                · exact hL h
              | abortAll =>
                intro a s e hf hm
                rcases (hM _).mp hm with ⟨h1, h2, h3, h4⟩ | ⟨a1, s1, e1, _, h4⟩
                · rcases hf (hmf h2 h1) with h5 | h5
                  · subst h5
                    simp only [List.nil_append] at e
                    subst e
                    exact hno ⟨h1, h2, h3, h4⟩
                  · have ha : a = a.dropLast ++ [c!"/"] := by
                      have hne' : a ≠ [] := by rintro rfl; simp at h5
                      rw [List.getLast?_eq_some_getLast hne', Option.some.injEq] at h5
                      rw [← h5]; exact (List.dropLast_concat_getLast hne').symm
                    have hp2 : p2 = c!"/" :: p2.tail := by
                      cases p2 with
                      | nil => exact absurd rfl hne
                      | cons y p2 => simp only [List.head?_cons, Option.some.injEq] at h3; rw [h3]; rfl
                    refine hL a.dropLast (c!"/" :: s) ?_ ?_
                    · rw [e]
                      conv => lhs; rw [ha]
                      simp
                    · rw [hp2, M_slash]; exact ⟨s, rfl, h4⟩
                · exact hL (a ++ a1) s1 (by rw [e, e1]; simp) h4
              | abortToStarStar =>
                refine ⟨hms hL.1, ?_⟩
                intro a s e ha _ hm
                rcases (hM _).mp hm with ⟨h1, h2, h3, h4⟩ | ⟨a1, s1, e1, h3, h4⟩
                · rw [hL.1] at h2; cases h2
                · rcases h3 with h3 | h3
                  · rw [hL.1] at h3; cases h3
                  · exact hL.2 (a ++ a1) s1 (by rw [e, e1]; simp) (by simp [ha, h3]) h4
      · have hhead : (c :: p).head? ≠ some c!"*" := by simpa using h42
        cases text with
        | nil =>
          rw [dowild_empty fl first p h42]
          intro a s e _
          have : s = [] := (List.append_eq_nil_iff.mp e.symm).2
          subst this
          exact M_empty (by simp) hhead
        | cons x t =>
          by_cases h92 : c = 92
          · subst h92
            cases p with
            | nil => rw [dowild_esc_end]; exact M_esc_end
            | cons l p =>
              rw [dowild_esc]
              simp only [fold_seen]
              split
              · rename_i h
                intro hm
                obtain ⟨_, ⟨y, e, h2⟩, _⟩ := M_esc.mp hm
                cases e
                exact h h2
              · rename_i h
                have h : seen fl.mode x = l := by simpa using h
                refine Inv.step (H := fun c => seen fl.mode c = l) (fun s => M_esc) h ?_ ?_ (ih _ p t (by simp only [List.length_cons] at hlp; omega))
                · intro h1 y hy
                  have h1 : l = c!"/" := by simpa using h1
                  rw [← fold_seen] at hy
                  exact (fold_slash fl).mp (hy.trans h1)
                · intro _ hy
                  rw [← fold_seen, (fold_slash fl).mpr rfl] at hy
                  simp [← hy]
          · by_cases h63 : c = 63
            · subst h63
              rw [dowild_any]
              split
              · rename_i h
                simp only [Bool.and_eq_true, decide_eq_true_eq] at h
                intro hm
                obtain ⟨_, ⟨y, e, h2⟩, _⟩ := M_any.mp hm
                cases e
                exact h2 ⟨h.1, (fold_slash fl).mp h.2⟩
              · rename_i h
                refine Inv.step (H := fun c => ¬ (fl.mode.pathname = true ∧ c = c!"/")) (fun s => M_any) ?_ ?_ ?_ (ih _ p t hlp)
                · rintro ⟨h1, h2⟩
                  exact h (by simp [show fl.pathname = true from h1, (fold_slash fl).mpr h2])
                · intro h1; cases h1
                · intro h1 h2; exact absurd ⟨h1, rfl⟩ h2
            · by_cases h91 : c = 91
              · subst h91
                have hset := set_eq fl x p
                cases hr : readSet p with
                | none =>
                  rw [hr] at hset
                  rw [dowild_set_none fl first hset]
                  intro a s _ _
                  exact M_set_none hr
                | some y =>
                  obtain ⟨o, r⟩ := y
                  rw [hr] at hset
                  obtain ⟨m, neg, hb, ho⟩ := hset
                  rw [dowild_set fl first hb]
                  have hlr := readSet_lt hr
                  split
                  · rename_i h
                    intro hm
                    obtain ⟨_, ⟨y, e, h2⟩, _⟩ := (M_set hr).mp hm
                    cases e
                    exact (ho.mp h2) (by simpa using h)
                  · rename_i h
                    refine Inv.step (H := fun c => o.Has fl.mode c) (fun s => M_set hr) (ho.mpr (by simpa using h)) ?_ ?_ (ih _ r t (by omega))
                    · intro h1; cases h1
                    · intro h1 h2
                      have hs2 := set_eq fl c!"/" p
                      rw [hr] at hs2
                      obtain ⟨m2, neg2, _, ho2⟩ := hs2
                      exact absurd (.inr ⟨h1, (fold_slash fl).mpr rfl⟩) (ho2.mp h2)
              · have hg : isGlobSpecial c = false := by simp [isGlobSpecial, h92, h63, h91, h42]
                rw [dowild_lit fl first p x t hg]
                simp only [fold_seen]
                split
                · rename_i h
                  intro hm
                  obtain ⟨_, ⟨y, e, h2⟩, _⟩ := (M_lit hg).mp hm
                  cases e
                  exact h h2
                · rename_i h
                  have h : seen fl.mode x = seen fl.mode c := by simpa using h
                  refine Inv.step (H := fun y => seen fl.mode y = seen fl.mode c) (fun s => M_lit hg) h ?_ ?_ (ih _ p t hlp)
                  · intro h1 y hy
                    have h1 : c = c!"/" := by simpa using h1
                    subst h1
                    rw [← fold_seen, ← fold_seen, (fold_slash fl).mpr rfl] at hy
                    exact (fold_slash fl).mp hy
                  · intro _ hy
                    rw [← fold_seen, ← fold_seen, (fold_slash fl).mpr rfl] at hy
                    simp [(fold_slash fl).mp hy.symm]

end Verif.Wildmatch
