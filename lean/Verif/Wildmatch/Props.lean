import Verif.Wildmatch.LemmasRun
/-! # C32: glob matching decides the meaning of the pattern -/
namespace Verif.Wildmatch
open Spec

/-- **C32.** A pattern matches a text exactly if the text is one of the strings the pattern stands for: whatever the pattern (malformed ones
match nothing), the text and the flags are. -/
theorem C32_wildmatch (fl : Flags) (pattern text : Bytes) : wildmatch fl pattern text = .ok ↔ Matches fl.mode pattern text :=
  (dowild_inv fl pattern.length true pattern text (Nat.le_refl _)).iff

/-- The two ways to give up that are invisible outside say nothing wrong: when the matcher gives up altogether, nothing that
the text ends with would have matched either, provided it begins at the beginning of the text or of a component. -/
theorem C32_abort_all (fl : Flags) (pattern a text : Bytes) (h : wildmatch fl pattern (a ++ text) = .abortAll)
    (ha : a = [] ∨ a.getLast? = some c!"/") : ¬ Matches fl.mode pattern text := by
  have := dowild_inv fl pattern.length true pattern (a ++ text) (Nat.le_refl _)
  rw [show dowild fl true pattern (a ++ text) = .abortAll from h] at this
  exact this a text rfl (fun _ => ha)

/-! ## What the meaning says, in the cases one knows -/

theorem lit_matches {p : Bytes} (hp : ∀ c ∈ p, isGlobSpecial c = false) (m : Mode) (first : Bool) (q t : Bytes) (hq : q.head? ≠ some c!"*" ∨ m.pathname = false) :
    M m first (p ++ q) t ↔ ∃ a s, t = a ++ s ∧ a.map (seen m) = p.map (seen m) ∧ M m true q s := by
  have hqf : ∀ f s, M m f q s ↔ M m true q s := by
    intro f s
    rcases hq with hq | hq
    · exact M_first hq
    · have : readPat m (q.length + 1) f q = readPat m (q.length + 1) true q := by
        unfold readPat
        split
        · rfl
        · rfl
        · rfl
        · rfl
        · simp only [readStars, hq, Bool.not_false, if_true]
        · rfl
      unfold M; rw [this]
  induction p generalizing first t with
  | nil =>
    rw [List.nil_append, hqf]
    constructor
    · intro h; exact ⟨[], t, rfl, rfl, h⟩
    · rintro ⟨a, s, e, h1, h2⟩
      have : a = [] := by simpa using h1
      subst this; subst e; exact h2
  | cons c p ih =>
    rw [List.cons_append, M_lit (hp c (by simp))]
    constructor
    · rintro ⟨t', ⟨x, e, hx⟩, h⟩
      obtain ⟨a, s, e2, h1, h2⟩ := (ih (fun c hc => hp c (by simp [hc])) _ t').mp h
      exact ⟨x :: a, s, by rw [e, e2]; rfl, by simp [hx, h1], h2⟩
    · rintro ⟨a, s, e, h1, h2⟩
      cases a with
      | nil => simp at h1
      | cons x a =>
        simp only [List.map_cons, List.cons.injEq] at h1
        exact ⟨a ++ s, ⟨x, e, h1.1⟩, (ih (fun c hc => hp c (by simp [hc])) _ _).mpr ⟨a, s, rfl, h1.2, h2⟩⟩

/-- A pattern without special characters matches itself only. -/
theorem C32_literal {p : Bytes} (hp : ∀ c ∈ p, c ∉ b!"*?[\\") (fl : Flags) (hc : fl.casefold = false) (t : Bytes) :
    wildmatch fl p t = .ok ↔ t = p := by
  have hp' : ∀ c ∈ p, isGlobSpecial c = false := by
    intro c h
    have := hp c h
    simp only [List.mem_cons, List.not_mem_nil, or_false, not_or] at this
    simp [isGlobSpecial, this]
  have hid : ∀ l : Bytes, l.map (seen fl.mode) = l := by
    intro l
    have : seen fl.mode = id := by funext x; simp [seen, Flags.mode, hc]
    rw [this, List.map_id]
  have h := lit_matches hp' fl.mode true [] t (.inl (by simp))
  rw [C32_wildmatch]
  rw [List.append_nil] at h
  refine Iff.trans h ?_
  simp only [hid, M_nil]
  constructor
  · rintro ⟨a, s, rfl, rfl, rfl⟩; simp
  · rintro rfl; exact ⟨t, [], by simp, rfl, rfl⟩

/-- One asterisk between literal parts, slashes not special: the text begins with the one and ends in the other, without overlap.
This is how reference names are matched by refspecs. -/
theorem C32_one_star {p q : Bytes} (hp : ∀ c ∈ p, c ∉ b!"*?[\\") (hq : ∀ c ∈ q, c ∉ b!"*?[\\") (t : Bytes) :
    wildmatch ⟨false, false⟩ (p ++ c!"*" :: q) t = .ok ↔ ∃ x, t = p ++ x ++ q := by
  have conv : ∀ p : Bytes, (∀ c ∈ p, c ∉ b!"*?[\\") → ∀ c ∈ p, isGlobSpecial c = false := by
    intro p hp c h
    have := hp c h
    simp only [List.mem_cons, List.not_mem_nil, or_false, not_or] at this
    simp [isGlobSpecial, this]
  have hid : ∀ l : Bytes, l.map (seen (Flags.mode ⟨false, false⟩)) = l := by
    intro l
    have : seen (Flags.mode ⟨false, false⟩) = id := by funext x; simp [seen, Flags.mode]
    rw [this, List.map_id]
  have h := lit_matches (conv p hp) (Flags.mode ⟨false, false⟩) true (c!"*" :: q) t (.inr rfl)
  rw [C32_wildmatch]
  refine Iff.trans h ?_
  have hqd : q.dropWhile (· == c!"*") = q := by
    cases q with
    | nil => rfl
    | cons c q =>
      have := hq c (by simp)
      simp only [List.mem_cons, not_or] at this
      have h2 : (c == c!"*") = false := by simpa using this.1
      rw [List.dropWhile_cons, h2]; rfl
  have hstar : ∀ s, M (Flags.mode ⟨false, false⟩) true (c!"*" :: q) s ↔ ∃ x, s = x ++ q := by
    intro s
    rw [M_star ⟨false, false⟩, hqd]
    have hq2 : ∀ s, M (Flags.mode ⟨false, false⟩) true q s ↔ s = q := by
      intro s
      have h := lit_matches (conv q hq) (Flags.mode ⟨false, false⟩) true [] s (.inl (by simp))
      rw [List.append_nil] at h
      rw [h]
      simp only [hid, M_nil]
      constructor
      · rintro ⟨a, s, rfl, rfl, rfl⟩; simp
      · rintro rfl; exact ⟨s, [], by simp, rfl, rfl⟩
    simp only [hq2, matchSlash, Bool.not_false, if_true, Bool.false_eq_true, false_and, false_or, true_or, true_and]
    constructor
    · rintro ⟨a, s, rfl, rfl⟩; exact ⟨a, rfl⟩
    · rintro ⟨x, rfl⟩; exact ⟨x, q, rfl, rfl⟩
  simp only [hid, hstar]
  constructor
  · rintro ⟨a, s, rfl, rfl, x, rfl⟩; exact ⟨x, by simp⟩
  · rintro ⟨x, rfl⟩; exact ⟨p, x ++ q, by simp, rfl, x, rfl⟩

/-- An asterisk never crosses a slash if slashes are special. -/
theorem C32_star_no_slash (t : Bytes) (icase : Bool) : wildmatch ⟨icase, true⟩ b!"*" t = .ok ↔ c!"/" ∉ t := by
  rw [C32_wildmatch]
  refine Iff.trans (M_star ⟨icase, true⟩ (first := true)) ?_
  simp [matchSlash, M_nil]

/-- "**/" matches in any directory, the topmost one included. -/
theorem C32_dirs {p : Bytes} (t : Bytes) (fl : Flags) (hfl : fl.pathname = true) :
    wildmatch fl (b!"**/" ++ p) t = .ok ↔ wildmatch fl p t = .ok ∨ ∃ a s, t = a ++ c!"/" :: s ∧ wildmatch fl p s = .ok := by
  simp only [C32_wildmatch]
  refine Iff.trans (M_star fl (first := true) (p := c!"*" :: c!"/" :: p)) ?_
  have hd : (c!"*" :: c!"/" :: p).dropWhile (· == c!"*") = c!"/" :: p := by simp
  rw [hd]
  have hms : matchSlash fl true (c!"*" :: c!"/" :: p) (c!"/" :: p) = true := by simp [matchSlash, hfl]
  simp only [hms, hfl, List.head?_cons, List.tail_cons, true_and, true_or, M_slash]
  constructor
  · rintro (h | ⟨a, s, e, s', rfl, h⟩)
    · exact .inl h
    · exact .inr ⟨a, s', e, h⟩
  · rintro (h | ⟨a, s, e, h⟩)
    · exact .inl h
    · exact .inr ⟨a, _, e, s, rfl, h⟩

/-! ## Concrete cases -/

private def run (icase path : Bool) (p t : Bytes) : R := wildmatch ⟨icase, path⟩ p t

attribute [local simp] run wildmatch dowild starLoop advance skipTo matchSlash fold isGlobSpecial isUpper toLower bracket bracketLoop bracketStep
  inRange charClass isLower isDigit isAlpha isAlnum

example : run false true b!"foo/**/bar" b!"foo/bar" = .ok := by simp
example : run false true b!"foo/**/bar" b!"foo/a/b/bar" = .ok := by simp
example : run false true b!"foo/*/bar" b!"foo/a/b/bar" ≠ .ok := by simp
example : run false false b!"foo/*/bar" b!"foo/a/b/bar" = .ok := by simp
example : run false true b!"*.[ch]" b!"a.c" = .ok :=
  (C32_wildmatch _ _ _).mpr ⟨_, rfl, b!"a", b!".c", rfl, by decide, _, _, rfl, rfl, _, _, rfl, ⟨by decide, by simp [Item.Has, seen, Flags.mode]⟩, rfl⟩
example : run false true b!"*.[!ch]" b!"a.c" ≠ .ok := by
  intro h
  obtain ⟨es, e, h⟩ := (C32_wildmatch _ _ _).mp h
  cases e
  obtain ⟨a, t, e, h1, c, t', rfl, h2, d, t'', rfl, h3, h4⟩ := h
  rw [show t'' = [] from h4] at e
  have : d = c!"c" := by
    have := congrArg List.getLast? e
    simp at this; exact this.symm
  subst this
  have := h3.2.mp ⟨.char c!"c", by simp, by simp [Item.Has, seen, Flags.mode]⟩
  cases this
example : run false true b!"[a-c]?[[:digit:]]" b!"bx7" = .ok :=
  (C32_wildmatch _ _ _).mpr ⟨_, rfl, _, _, rfl, ⟨by decide, by simp [Item.Has, seen, Flags.mode]⟩, _, _, rfl, (by simp [One.Has]), _, _, rfl,
    ⟨by decide, by simp [Item.Has, seen, Class.Has, Flags.mode]⟩, rfl⟩
example : run true true b!"READ*" b!"readme" = .ok := by simp
example : run false true b!"\\*" b!"*" = .ok := by simp
/-- an escaped capital matches nothing if case is ignored: the text is folded, the escaped byte is not -/
example : run true true b!"\\A" b!"A" ≠ .ok ∧ run true true b!"\\A" b!"a" ≠ .ok := by simp

/-- (the case in full) -/
theorem C32_escaped_capital (t : Bytes) (path : Bool) : wildmatch ⟨true, path⟩ b!"\\A" t ≠ .ok := by
  intro h
  rw [C32_wildmatch] at h
  obtain ⟨_, ⟨x, _, h⟩, _⟩ := M_esc.mp h
  have h2 : ∀ x : UInt8, lower x ≠ c!"A" := by unfold lower; decide +kernel
  exact h2 x h

end Verif.Wildmatch
