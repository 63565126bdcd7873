import Verif.Attr.Lemmas2
/-! # The pattern of a line, and the lines of a file -/
namespace Verif.Attr
open Spec
open Ignore (nextLine nextLine_append Scan scanLoop finishParse escAfter wildFrom wildFrom_eq isWildcard trim_full unescape_eq escAfter_false nextLine_suffix nextLine_lt split_line)
open Ignore.Spec (Rule isBlank unescape hasWild stripBlanks dropCr)
open Wildmatch (isSpace)

/-- no blank without a backslash before it -/
def WordOk : Bool → Bytes → Prop
  | _, [] => True
  | e, c :: t => (isSpace c = true → e = true) ∧ WordOk (decide (c = c!"\\" ∧ e = false)) t

theorem scan_stop (s : Scan) (R : Bytes) (h : R = [] ∨ (s.escaped = false ∧ ∀ c ∈ R.head?, isSpace c = true)) : scanLoop false R s = (s, R) := by
  cases R with
  | nil => rfl
  | cons c R =>
    rcases h with h | ⟨he, hc⟩
    · cases h
    · have hc := hc c rfl
      have hb : c ≠ c!"\\" := by rintro rfl; revert hc; decide
      rw [scanLoop, if_neg (by simp [hb]), if_pos ⟨hc, he⟩, if_pos (by simp)]

theorem scan_mid (L R : Bytes) (s : Scan) (hL : WordOk s.escaped L) (hR : R = [] ∨ (escAfter s.escaped L = false ∧ ∀ c ∈ R.head?, isSpace c = true))
    (hs : s.taken ≠ [] ∨ s.slashes ≠ 0) :
    scanLoop false (L ++ R) s = (⟨s.taken ++ L, escAfter s.escaped L, s.fullpath || decide (0 < L.count c!"/"), s.wild || wildFrom s.escaped L, s.slashes + L.count c!"/"⟩, R) := by
  induction L generalizing s with
  | nil =>
    rw [List.nil_append, scan_stop s R hR]
    simp [escAfter, wildFrom]
  | cons c L ih =>
    rw [WordOk] at hL
    rw [List.cons_append, scanLoop]
    by_cases h1 : c = c!"\\" ∧ s.escaped = false
    · rw [if_pos h1]
      obtain ⟨rfl, h1⟩ := h1
      rw [ih _ (by simpa [h1] using hL.2) (by simpa [escAfter, h1] using hR) (by simp)]
      simp [escAfter, wildFrom, h1, List.count_cons]
    · rw [if_neg h1]
      have hes : escAfter s.escaped (c :: L) = escAfter false L := by simp only [escAfter, decide_eq_false h1]
      have hwf : wildFrom s.escaped (c :: L) = ((isWildcard c && !s.escaped) || wildFrom false L) := by rw [wildFrom, if_neg h1]
      have hL2 : WordOk false L := by have := hL.2; rwa [decide_eq_false h1] at this
      have hR2 : R = [] ∨ (escAfter false L = false ∧ ∀ c ∈ R.head?, isSpace c = true) := by rw [← hes]; exact hR
      have h2 : ¬ (isSpace c = true ∧ s.escaped = false) := by
        rintro ⟨a, b⟩
        rw [hL.1 a] at b; cases b
      rw [if_neg h2]
      by_cases h3 : c = c!"/"
      · rw [if_pos h3]
        subst h3
        rw [ih _ hL2 hR2 (by simp)]
        have : ¬ (s.slashes = 0 ∧ s.taken = []) := by
          rintro ⟨a, b⟩
          rcases hs with h | h
          · exact h b
          · exact h a
        rw [if_neg this, hes, hwf]
        have : isWildcard c!"/" = false := by decide
        simp [this, List.count_cons]
        omega
      · rw [if_neg h3]
        have hcnt : (c :: L).count c!"/" = L.count c!"/" := by simp [List.count_cons, h3]
        by_cases h4 : isWildcard c = true ∧ s.escaped = false
        · rw [if_pos h4, ih _ hL2 hR2 (by simp), hes, hwf, hcnt]
          simp [h4]
        · rw [if_neg h4, ih _ hL2 hR2 (by simp), hes, hwf, hcnt]
          have : (isWildcard c && !s.escaped) = false := by
            cases h : isWildcard c <;> cases h' : s.escaped <;> simp [h, h'] at h4 ⊢
          rw [this]
          simp

/-- the scan of a word -/
theorem scan_word (L R : Bytes) (hL : WordOk false L) (hR : R = [] ∨ (escAfter false L = false ∧ ∀ c ∈ R.head?, isSpace c = true)) :
    ∃ e, scanLoop false (L ++ R) ⟨[], false, false, false, 0⟩ =
      (⟨if L.head? = some c!"/" then L.tail else L, e, decide (0 < L.count c!"/"), hasWild L, L.count c!"/"⟩, R) := by
  cases L with
  | nil =>
    refine ⟨false, ?_⟩
    rw [List.nil_append, scan_stop _ R hR]
    rfl
  | cons c L =>
    rw [WordOk] at hL
    by_cases h3 : c = c!"/"
    · subst h3
      refine ⟨escAfter false L, ?_⟩
      rw [List.cons_append, scanLoop, if_neg (by simp), if_neg (by decide), if_pos rfl]
      rw [scan_mid L R _ (by simpa using hL.2) (by simpa [escAfter] using hR) (by simp)]
      have : hasWild (c!"/" :: L) = hasWild L := by
        rw [← wildFrom_eq, ← wildFrom_eq]; simp [wildFrom, isWildcard]
      simp [this, wildFrom_eq, List.count_cons]
      omega
    · rw [List.head?_cons, if_neg (by simp [h3]), ← wildFrom_eq]
      have hcnt : (c :: L).count c!"/" = L.count c!"/" := by simp [List.count_cons, h3]
      rw [List.cons_append, scanLoop]
      by_cases h1 : c = c!"\\"
      · subst h1
        refine ⟨escAfter true L, ?_⟩
        rw [if_pos ⟨rfl, rfl⟩, scan_mid L R _ (by simpa using hL.2) (by simpa [escAfter] using hR) (by simp), hcnt]
        simp [wildFrom]
      · rw [if_neg (by simp [h1])]
        refine ⟨escAfter false L, ?_⟩
        have hR2 : R = [] ∨ (escAfter false L = false ∧ ∀ c ∈ R.head?, isSpace c = true) := by simpa [escAfter, h1] using hR
        have hL2 : WordOk false L := by simpa [h1] using hL.2
        have h2 : ¬ (isSpace c = true) := by
          intro a
          have := hL.1 a; cases this
        rw [if_neg (by simp [h2]), if_neg h3]
        by_cases h4 : isWildcard c = true
        · rw [if_pos ⟨h4, rfl⟩, scan_mid L R _ hL2 hR2 (by simp), hcnt]
          simp [wildFrom, h1, h4]
        · rw [if_neg (by simp [h4]), scan_mid L R _ hL2 hR2 (by simp), hcnt]
          simp [wildFrom, h1, h4]

theorem firstWord_aux (n : Nat) : ∀ t : Bytes, t.length ≤ n → t = (firstWord t).1 ++ (firstWord t).2 ∧ WordOk false (firstWord t).1 ∧
    ((firstWord t).2 = [] ∨ (escAfter false (firstWord t).1 = false ∧ ∀ c ∈ (firstWord t).2.head?, isSpace c = true)) := by
  induction n with
  | zero =>
    intro t h
    have : t = [] := List.length_eq_zero_iff.mp (by omega)
    subst this
    exact ⟨rfl, trivial, .inl rfl⟩
  | succ n ih =>
    intro t h
    match t, h with
    | [], _ => exact ⟨rfl, trivial, .inl rfl⟩
    | [c], _ =>
      rw [firstWord]
      by_cases hb : isBlank c = true
      · rw [if_pos hb]
        exact ⟨rfl, trivial, .inr ⟨rfl, by intro x hx; simp at hx; subst hx; exact hb⟩⟩
      · rw [if_neg hb]
        refine ⟨rfl, ⟨fun h => absurd h hb, trivial⟩, .inl rfl⟩
    | c :: d :: t, h =>
      simp only [List.length_cons] at h
      rw [firstWord]
      by_cases hc : c = c!"\\"
      · rw [if_pos hc]
        subst hc
        obtain ⟨h1, h2, h3⟩ := ih t (by omega)
        refine ⟨by simp only [List.cons_append]; rw [← h1], ⟨by intro h; revert h; decide, ?_⟩, ?_⟩
        · refine ⟨by simp, ?_⟩
          simpa using h2
        · simpa [escAfter] using h3
      · rw [if_neg hc]
        by_cases hb : isBlank c = true
        · rw [if_pos hb]
          exact ⟨rfl, trivial, .inr ⟨rfl, by intro x hx; simp at hx; subst hx; exact hb⟩⟩
        · rw [if_neg hb]
          obtain ⟨h1, h2, h3⟩ := ih (d :: t) (by simp; omega)
          refine ⟨by simp only [List.cons_append]; rw [← h1], ⟨fun h => absurd h hb, by simpa [hc] using h2⟩, ?_⟩
          simpa [escAfter, hc] using h3

theorem firstWord_ok (t : Bytes) : t = (firstWord t).1 ++ (firstWord t).2 ∧ WordOk false (firstWord t).1 ∧
    ((firstWord t).2 = [] ∨ (escAfter false (firstWord t).1 = false ∧ ∀ c ∈ (firstWord t).2.head?, isSpace c = true)) := firstWord_aux _ t (Nat.le_refl _)

theorem finish_ok (below : Option Bytes) (R p t : Bytes) (neg e : Bool) (hb : stripBlanks (dropCr t) ≠ []) :
    finishParse below neg ⟨t, e, decide (0 < p.count c!"/"), hasWild p, p.count c!"/"⟩ R =
      .rule ⟨unescape (if (stripBlanks (dropCr t)).getLast? = some c!"/" then (stripBlanks (dropCr t)).dropLast else stripBlanks (dropCr t)), below, neg,
        decide ((stripBlanks (dropCr t)).getLast? = some c!"/"),
        decide ((if (stripBlanks (dropCr t)).getLast? = some c!"/" then 2 else 1) ≤ p.count c!"/"), hasWild p, false⟩ R := by
  unfold finishParse
  dsimp only
  have hcr : (if t.getLast? = some c!"\r" then t.dropLast else t) = dropCr t := rfl
  rw [hcr, trim_full]
  have h2 : dropCr t ≠ [] := by intro h; rw [h] at hb; exact hb rfl
  have h1 : t ≠ [] := by intro h; rw [h] at h2; exact h2 rfl
  rw [if_neg h1, if_neg h2, if_neg hb]
  congr 1
  generalize stripBlanks (dropCr t) = B
  by_cases hd : B.getLast? = some c!"/"
  · simp only [hd, decide_true, true_and, if_true, unescape_eq]
    congr 1
    by_cases hk : p.count c!"/" ≤ 1
    · rw [if_pos hk]; symm; rw [decide_eq_false_iff_not]; omega
    · rw [if_neg hk]; rw [decide_eq_decide]; omega
  · simp only [hd, decide_false, false_and, if_false, unescape_eq]
    congr 1

/-- the pattern of a line -/
theorem pattern_ok (icase : Bool) (below : Option Bytes) {w R : Bytes} (hw : WordOk false w) (hR : R = [] ∨ (escAfter false w = false ∧ ∀ c ∈ R.head?, isSpace c = true))
    (hb : patternBody w ≠ []) (q : Bytes) (hq : q = if (w ++ R).head? = some c!"!" then (w ++ R).tail else w ++ R) :
    finishParse below (decide ((w ++ R).head? = some c!"!")) (scanLoop false q ⟨[], false, false, false, 0⟩).1 (scanLoop false q ⟨[], false, false, false, 0⟩).2 =
      .rule { readPattern icase below w with icase := false } R := by
  have hwn : w ≠ [] := by rintro rfl; exact hb rfl
  rw [head_append hwn, tail_append hwn] at hq
  rw [head_append hwn]
  have hqe : q = (if w.head? = some c!"!" then w.tail else w) ++ R := by rw [hq]; split <;> rfl
  have hw2 : WordOk false (if w.head? = some c!"!" then w.tail else w) ∧ escAfter false (if w.head? = some c!"!" then w.tail else w) = escAfter false w := by
    split
    · rename_i h
      cases w with
      | nil => cases h
      | cons c w =>
        simp at h
        subst h
        rw [WordOk] at hw
        exact ⟨by simpa using hw.2, by simp [escAfter]⟩
    · exact ⟨hw, rfl⟩
  rw [hqe]
  have hR2 := hR
  rw [← hw2.2] at hR2
  have hw3 := hw2.1
  unfold patternBody at hb
  unfold readPattern patternBody
  simp only [decide_eq_true_eq] at hb ⊢
  generalize (if w.head? = some c!"!" then w.tail else w) = p at *
  obtain ⟨e, hs⟩ := scan_word p R hw3 hR2
  rw [hs]
  exact finish_ok below R p _ _ e hb

/-! ## Lines -/

theorem lines_ne_nil (t : Bytes) : lines t ≠ [] := by
  cases t with
  | nil => simp [lines]
  | cons c t => rw [lines]; split <;> simp

theorem lines_line {L : Bytes} (hL : ∀ c ∈ L, c ≠ 10) : lines L = [L] := by
  induction L with
  | nil => rfl
  | cons c L ih =>
    rw [lines, if_neg (hL c (by simp)), ih (fun x hx => hL x (by simp [hx]))]
    rfl

theorem lines_append {L R : Bytes} (hL : ∀ c ∈ L, c ≠ 10) : lines (L ++ c!"\n" :: R) = L :: lines R := by
  induction L with
  | nil => rw [List.nil_append, lines, if_pos rfl]
  | cons c L ih =>
    rw [List.cons_append, lines, if_neg (hL c (by simp)), ih (fun x hx => hL x (by simp [hx]))]
    rfl

/-- reading the lines of a text -/
def readLines (icase : Bool) (below : Option Bytes) (allow : Bool) (s : Read) (t : Bytes) : Read := (lines t).foldl (readLine icase below allow) s

theorem readLine_drop {icase : Bool} {below : Option Bytes} {allow : Bool} (s : Read) {l l' : Bytes} (h : l.dropWhile isBlank = l'.dropWhile isBlank) :
    readLine icase below allow s l = readLine icase below allow s l' := by
  unfold readLine isEmptyLine patternWord isMacro
  rw [h]

theorem readLine_blank {icase : Bool} {below : Option Bytes} {allow : Bool} (s : Read) {l : Bytes} (h : isEmptyLine l = true) :
    readLine icase below allow s l = s := by
  unfold readLine
  rw [if_pos (.inl h)]

/-- blanks at the beginning do not matter -/
theorem readLines_blank {icase : Bool} {below : Option Bytes} {allow : Bool} (s : Read) {b : Bytes} (hb : ∀ c ∈ b, isBlank c = true) (t : Bytes) :
    readLines icase below allow s (b ++ t) = readLines icase below allow s t := by
  induction b with
  | nil => rfl
  | cons c b ih =>
    have hc := hb c (by simp)
    rw [← ih (fun x hx => hb x (by simp [hx]))]
    rw [List.cons_append]
    unfold readLines
    rw [lines]
    generalize b ++ t = u
    split
    · rw [List.foldl_cons, readLine_blank _ (by rfl)]
    · have := lines_ne_nil u
      cases hu : lines u with
      | nil => exact absurd hu this
      | cons l ls =>
        simp only [List.headD_cons, List.tail_cons, List.foldl_cons]
        rw [readLine_drop (l := c :: l) (l' := l)]
        rw [List.dropWhile_cons, if_pos hc]

/-- what `Plain` says, of what is left of a text (blanks at the beginning do not matter) -/
structure PlainL (t : Bytes) : Prop where
  noescape : ∀ a b, t ≠ a ++ c!"\\" :: c!"\n" :: b
  pattern : ∀ l ∈ lines t, isEmptyLine l = false → patternBody (patternWord l).1 ≠ []
  last : ∀ l ∈ (lines t).getLast?, l.dropWhile isBlank ≠ b!"*" ∧ l.dropWhile isBlank ≠ b!"."

theorem PlainL.blank {b t : Bytes} (hb : ∀ c ∈ b, isBlank c = true) (h : PlainL (b ++ t)) : PlainL t := by
  induction b with
  | nil => exact h
  | cons c b ih =>
    have hc := hb c (by simp)
    refine ih (fun x hx => hb x (by simp [hx])) ?_
    rw [List.cons_append] at h
    generalize b ++ t = u at h
    refine ⟨fun x y e => h.noescape (c :: x) y (by rw [e]; rfl), ?_, ?_⟩
    · have h1 := h.pattern
      rw [lines] at h1
      split at h1
      · intro l hl; exact h1 l (by simp [hl])
      · have := lines_ne_nil u
        cases hu : lines u with
        | nil => exact absurd hu this
        | cons l ls =>
          rw [hu] at h1
          simp only [List.headD_cons, List.tail_cons, List.mem_cons, forall_eq_or_imp] at h1 ⊢
          refine ⟨?_, h1.2⟩
          have e : (c :: l).dropWhile isBlank = l.dropWhile isBlank := by rw [List.dropWhile_cons, if_pos hc]
          have := h1.1
          unfold isEmptyLine patternWord isMacro at this ⊢
          rwa [e] at this
    · have h1 := h.last
      rw [lines] at h1
      have hne := lines_ne_nil u
      cases hu : lines u with
      | nil => exact absurd hu hne
      | cons l ls =>
        rw [hu] at h1
        split at h1
        · rw [List.getLast?_cons_cons] at h1; exact h1
        · simp only [List.headD_cons, List.tail_cons] at h1
          cases ls with
          | nil =>
            simp only [List.getLast?_singleton, Option.mem_def, Option.some.injEq, forall_eq'] at h1 ⊢
            rwa [List.dropWhile_cons, if_pos hc] at h1
          | cons l2 ls =>
            rw [List.getLast?_cons_cons] at h1 ⊢; exact h1

theorem PlainL.next {L R : Bytes} (hL : ∀ c ∈ L, c ≠ 10) (h : PlainL (L ++ c!"\n" :: R)) : PlainL R := by
  have hl := lines_append (R := R) hL
  refine ⟨fun x y e => h.noescape (L ++ c!"\n" :: x) y (by rw [e]; simp), ?_, ?_⟩
  · intro l hm; exact h.pattern l (by rw [hl]; simp [hm])
  · have := h.last
    rw [hl] at this
    cases hR : lines R with
    | nil => exact absurd hR (lines_ne_nil R)
    | cons a b => rw [hR, List.getLast?_cons_cons] at this; exact this

/-- the rules of a file are those of the specification -/
def FRep (rs : List ARule) (ss : List (Rule × List Assign)) : Prop := List.Forall₂ (fun a b => a.1 = b.1 ∧ Rep a.2 b.2) rs ss

theorem FRep.snoc {rs : List ARule} {ss : List (Rule × List Assign)} (h : FRep rs ss) {r : Rule} {v as : List Assign} (hr : Rep v as) : FRep (rs ++ [(r, v)]) (ss ++ [(r, as)]) := by
  unfold FRep at *
  induction h with
  | nil => exact .cons ⟨rfl, hr⟩ .nil
  | cons hd _ ih => exact .cons hd ih

theorem nextLine_newline (R : Bytes) : ∃ b, (∀ c ∈ b, isBlank c = true) ∧ R = b ++ nextLine (c!"\n" :: R) := by
  have e : nextLine (c!"\n" :: R) = R.dropWhile (fun c => c == c!"\n" || c == c!"\r") := by
    unfold nextLine
    rw [List.dropWhile_cons_of_neg (by simp), List.dropWhile_cons_of_pos (by simp)]
  obtain ⟨h1, h2, h3⟩ := tw_dw (p := fun c => c == c!"\n" || c == c!"\r") R
  rw [e]
  refine ⟨_, ?_, h1⟩
  intro c hc
  have := h2 c hc
  simp at this
  rcases this with rfl | rfl <;> decide

theorem nextLine_step {icase : Bool} {below : Option Bytes} {allow : Bool} (s : Read) {L R : Bytes} (hL : ∀ c ∈ L, c ≠ 10) (hR : ∀ c ∈ R.head?, c = c!"\n") :
    readLines icase below allow s (L ++ R) = (if nextLine R = [] then readLine icase below allow s L else readLines icase below allow (readLine icase below allow s L) (nextLine R)) ∧
    (PlainL (L ++ R) → nextLine R ≠ [] → PlainL (nextLine R)) ∧ (nextLine R).length + L.length ≤ (L ++ R).length := by
  cases R with
  | nil =>
    refine ⟨?_, fun _ h => absurd rfl h, by simp [nextLine]⟩
    rw [if_pos (show nextLine [] = [] from rfl), List.append_nil]
    unfold readLines
    rw [lines_line hL]
    rfl
  | cons c R =>
    have := hR c rfl
    subst this
    obtain ⟨b, hb, e⟩ := nextLine_newline R
    have hlen := congrArg List.length e
    generalize nextLine (c!"\n" :: R) = N at *
    subst e
    refine ⟨?_, fun h _ => (PlainL.next hL h).blank hb, by simp at *; omega⟩
    have h1 : readLines icase below allow s (L ++ c!"\n" :: (b ++ N)) = readLines icase below allow (readLine icase below allow s L) (b ++ N) := by
      unfold readLines
      rw [lines_append hL]
      rfl
    rw [h1, readLines_blank _ hb]
    split
    · rename_i hN
      subst hN
      unfold readLines
      simp only [lines, List.foldl_cons, List.foldl_nil]
      exact readLine_blank _ rfl
    · rfl

end Verif.Attr
