import Verif.Ignore.Model
import Verif.Wildmatch.Props
/-! # Parsing: the pattern scanner against the reader of lines -/
namespace Verif.Ignore
open Spec (Rule Env hasWild stripBlanks backslashes unescape dropCr readLine readLast)
open Wildmatch (wildmatch isSpace)

theorem toLower_eq (c : UInt8) : Wildmatch.toLower c = Wildmatch.Spec.lower c := by
  unfold Wildmatch.toLower Wildmatch.Spec.lower Wildmatch.isUpper
  congr 1
  simp

/-- wildcards, with the state of escaping -/
def wildFrom : Bool → Bytes → Bool
  | _, [] => false
  | e, c :: t => if c = c!"\\" ∧ e = false then wildFrom true t else (isWildcard c && !e) || wildFrom false t

theorem hasWild_cons {c d : UInt8} {t : Bytes} (h : c ≠ c!"\\") : hasWild (c :: d :: t) = (decide (c = c!"*" ∨ c = c!"?" ∨ c = c!"[") || hasWild (d :: t)) := by
  rw [hasWild, if_neg h]

theorem isWildcard_eq (c : UInt8) : isWildcard c = decide (c = c!"*" ∨ c = c!"?" ∨ c = c!"[") := by
  unfold isWildcard
  by_cases h1 : c = 42 <;> by_cases h2 : c = 63 <;> by_cases h3 : c = 91 <;> simp [h1, h2, h3]

theorem wildFrom_eq_aux (n : Nat) : ∀ L : Bytes, L.length ≤ n → wildFrom false L = hasWild L := by
  induction n with
  | zero => intro L h; rw [List.length_eq_zero_iff.mp (Nat.le_zero.mp h)]; rfl
  | succ n ih =>
    intro L h
    match L, h with
    | [], _ => rfl
    | [c], _ =>
      by_cases hc : c = c!"\\"
      · subst hc; rfl
      · rw [wildFrom, if_neg (by simp [hc]), hasWild, ← isWildcard_eq]; simp [wildFrom]
    | c :: d :: t, h =>
      simp only [List.length_cons] at h
      by_cases hc : c = c!"\\"
      · subst hc
        rw [wildFrom, if_pos ⟨rfl, rfl⟩, wildFrom, if_neg (by simp), hasWild, if_pos rfl, ih t (by omega)]
        simp
      · rw [wildFrom, if_neg (by simp [hc]), hasWild_cons hc, ← isWildcard_eq, ih (d :: t) (by simp; omega)]; simp

theorem wildFrom_eq (L : Bytes) : wildFrom false L = hasWild L := wildFrom_eq_aux _ L (Nat.le_refl _)

theorem unescape_eq_aux (n : Nat) : ∀ L : Bytes, L.length ≤ n → unescapeLoop false L = unescape L := by
  induction n with
  | zero => intro L h; rw [List.length_eq_zero_iff.mp (Nat.le_zero.mp h)]; rfl
  | succ n ih =>
    intro L h
    match L, h with
    | [], _ => rfl
    | [c], _ =>
      by_cases hc : c = c!"\\"
      · subst hc; rfl
      · simp [unescapeLoop, unescape, hc]
    | c :: d :: t, h =>
      simp only [List.length_cons] at h
      by_cases hc : c = c!"\\"
      · subst hc
        have e : isSpace d = Spec.isBlank d := rfl
        cases hb : Spec.isBlank d
        · simp [unescapeLoop, unescape, e, hb, ih t (by omega)]
        · simp [unescapeLoop, unescape, e, hb, ih t (by omega)]
      · rw [unescapeLoop, unescape, if_neg hc, ih (d :: t) (by simp; omega)]; simp [hc]

theorem unescape_eq (L : Bytes) : unescapeLoop false L = unescape L := unescape_eq_aux _ L (Nat.le_refl _)

theorem trim_eq (p : Bytes) (n : Nat) (hn : n ≤ p.length) : trimLoop p n = stripBlanks.go n (p.take n) := by
  induction n with
  | zero => simp [trimLoop, stripBlanks.go]
  | succ n ih =>
    have hl : (p.take (n + 1)).getLast? = some (p.getD n 0) := by
      rw [List.getLast?_eq_getElem?]
      simp only [List.length_take, Nat.min_eq_left hn]
      rw [show n + 1 - 1 = n from rfl, List.getElem?_take_of_lt (by omega)]
      rw [List.getD_eq_getElem?_getD, List.getElem?_eq_getElem (by omega)]
      rfl
    have hd : (p.take (n + 1)).dropLast = p.take n := by
      rw [List.dropLast_eq_take, List.take_take]
      congr 1
      simp only [List.length_take]; omega
    rw [trimLoop, stripBlanks.go]
    simp only [hl, hd]
    generalize p.getD n 0 = c
    have hb : escapesBefore (p.take n) = backslashes (p.take n) := rfl
    by_cases h : c = c!" " ∨ c = c!"\t"
    · rw [if_neg (by rcases h with h | h <;> simp [h])]
      by_cases h2 : backslashes (p.take n) % 2 = 0
      · rw [if_neg (by rw [hb]; omega), if_pos ⟨h, h2⟩, ih (by omega)]
      · rw [if_pos (by rw [hb]; omega), if_neg (fun k => h2 k.2)]
    · rw [if_pos (by rwa [not_or] at h), if_neg (fun k => h k.1)]

/-- the state of escaping after a text -/
def escAfter : Bool → Bytes → Bool
  | e, [] => e
  | e, c :: t => escAfter (decide (c = c!"\\" ∧ e = false)) t

theorem escAfter_snoc (e : Bool) (L : Bytes) (c : UInt8) : escAfter e (L ++ [c]) = decide (c = c!"\\" ∧ escAfter e L = false) := by
  induction L generalizing e with
  | nil => rfl
  | cons d L ih => exact ih _

theorem escAfter_false {L : Bytes} (h : L.getLast? ≠ some c!"\\") : escAfter false L = false := by
  rcases List.eq_nil_or_concat L with rfl | ⟨L', c, rfl⟩
  · rfl
  · rw [List.concat_eq_append] at *
    rw [escAfter_snoc]
    simp at h
    simp [h]

/-- a byte of a line: no newline, vertical tab or form feed -/
def LineByte (c : UInt8) : Prop := c ≠ 10 ∧ c ≠ 11 ∧ c ≠ 12

theorem lineByte_space {c : UInt8} (h : LineByte c) (hs : isSpace c = true) : c = c!" " ∨ c = c!"\t" ∨ c = c!"\r" := by
  have : ∀ c : UInt8, c ≠ 10 ∧ c ≠ 11 ∧ c ≠ 12 → isSpace c = true → c = c!" " ∨ c = c!"\t" ∨ c = c!"\r" := by
    unfold isSpace; decide +kernel
  exact this c h hs

theorem scan_stop (s : Scan) (R : Bytes) (he : s.escaped = false ∨ R = []) (hR : ∀ c ∈ R.head?, c = c!"\n") : scanLoop true R s = (s, R) := by
  cases R with
  | nil => rfl
  | cons c R =>
    have hc : c = c!"\n" := hR c rfl
    subst hc
    have he : s.escaped = false := by rcases he with h | h; exact h; cases h
    rw [scanLoop, if_neg (by simp), if_pos ⟨rfl, he⟩, if_pos (by decide)]

/-- the scan of a line, not at its first byte -/
theorem scan_mid (L R : Bytes) (hL : ∀ c ∈ L, LineByte c) (hR : ∀ c ∈ R.head?, c = c!"\n") (s : Scan)
    (he : escAfter s.escaped L = false ∨ R = []) (hs : s.taken ≠ [] ∨ s.slashes ≠ 0) :
    scanLoop true (L ++ R) s = (⟨s.taken ++ L, escAfter s.escaped L, s.fullpath || decide (0 < L.count c!"/"), s.wild || wildFrom s.escaped L, s.slashes + L.count c!"/"⟩, R) := by
  induction L generalizing s with
  | nil =>
    rw [List.nil_append, scan_stop s R he hR]
    simp [escAfter, wildFrom]
  | cons c L ih =>
    have hL' : ∀ c ∈ L, LineByte c := fun x hx => hL x (List.mem_cons_of_mem _ hx)
    have hc := hL c (List.mem_cons_self ..)
    rw [List.cons_append, scanLoop]
    by_cases h1 : c = c!"\\" ∧ s.escaped = false
    · rw [if_pos h1]
      obtain ⟨rfl, h1⟩ := h1
      rw [ih hL' _ (by simpa [escAfter, h1] using he) (by simp)]
      simp [escAfter, wildFrom, h1, List.count_cons]
    · rw [if_neg h1]
      have hes : escAfter s.escaped (c :: L) = escAfter false L := by simp only [escAfter, decide_eq_false h1]
      have hwf : wildFrom s.escaped (c :: L) = ((isWildcard c && !s.escaped) || wildFrom false L) := by rw [wildFrom, if_neg h1]
      by_cases h2 : isSpace c = true ∧ s.escaped = false
      · rw [if_pos h2, if_neg (by rcases lineByte_space hc h2.1 with h | h | h <;> simp [h])]
        rw [ih hL' _ (by rw [← hes]; exact he) (by simp)]
        have hns : c ≠ c!"/" ∧ isWildcard c = false := by
          rcases lineByte_space hc h2.1 with h | h | h <;> (subst h; decide)
        simp [hes, hwf, hns, List.count_cons]
      · rw [if_neg h2]
        by_cases h3 : c = c!"/"
        · rw [if_pos h3]
          subst h3
          rw [ih hL' _ (by rw [← hes]; exact he) (by simp)]
          have : ¬ (s.slashes = 0 ∧ s.taken = []) := by
            rintro ⟨a, b⟩
            rcases hs with h | h
            · exact h b
            · exact h a
          rw [if_neg this, hes, hwf]
          have : isWildcard c!"/" = false := by decide
          simp [this, List.count_cons]
          omega
        · rw [if_neg h3]
          have hcnt : (c :: L).count c!"/" = L.count c!"/" := by simp [List.count_cons, h3]
          by_cases h4 : isWildcard c = true ∧ s.escaped = false
          · rw [if_pos h4, ih hL' _ (by rw [← hes]; exact he) (by simp), hes, hwf, hcnt]
            simp [h4]
          · rw [if_neg h4, ih hL' _ (by rw [← hes]; exact he) (by simp), hes, hwf, hcnt]
            have : (isWildcard c && !s.escaped) = false := by
              cases h : isWildcard c <;> cases h' : s.escaped <;> simp [h, h'] at h4 ⊢
            rw [this]
            simp

/-- the scan of a line -/
theorem scan_line (L R : Bytes) (hL : ∀ c ∈ L, LineByte c) (hR : ∀ c ∈ R.head?, c = c!"\n") (he : escAfter false L = false ∨ R = []) :
    ∃ e, scanLoop true (L ++ R) ⟨[], false, false, false, 0⟩ =
      (⟨if L.head? = some c!"/" then L.tail else L, e, decide (0 < L.count c!"/"), hasWild L, L.count c!"/"⟩, R) := by
  cases L with
  | nil =>
    refine ⟨false, ?_⟩
    rw [List.nil_append, scan_stop _ R he hR]
    rfl
  | cons c L =>
    have hL' : ∀ c ∈ L, LineByte c := fun x hx => hL x (List.mem_cons_of_mem _ hx)
    have hc := hL c (List.mem_cons_self ..)
    by_cases h3 : c = c!"/"
    · subst h3
      refine ⟨escAfter false L, ?_⟩
      rw [List.cons_append, scanLoop, if_neg (by simp), if_neg (by decide), if_pos rfl]
      rw [scan_mid L R hL' hR _ (by simpa [escAfter] using he) (by simp)]
      have : hasWild (c!"/" :: L) = hasWild L := by
        rw [← wildFrom_eq, ← wildFrom_eq]; simp [wildFrom, isWildcard]
      simp [this, wildFrom_eq, List.count_cons]
      omega
    · rw [List.head?_cons, if_neg (by simp [h3]), ← wildFrom_eq]
      have hcnt : (c :: L).count c!"/" = L.count c!"/" := by simp [List.count_cons, h3]
      rw [List.cons_append, scanLoop]
      by_cases h1 : c = c!"\\"
      · subst h1
        refine ⟨escAfter true L, ?_⟩
        rw [if_pos ⟨rfl, rfl⟩, scan_mid L R hL' hR _ (by simpa [escAfter] using he) (by simp), hcnt]
        simp [wildFrom]
      · rw [if_neg (by simp [h1])]
        refine ⟨escAfter false L, ?_⟩
        have he' : escAfter false L = false ∨ R = [] := by simpa [escAfter, h1] using he
        by_cases h2 : isSpace c = true
        · rw [if_pos ⟨h2, rfl⟩, if_neg (by rcases lineByte_space hc h2 with h | h | h <;> simp [h])]
          rw [scan_mid L R hL' hR _ he' (by simp), hcnt]
          have hns : isWildcard c = false := by
            rcases lineByte_space hc h2 with h | h | h <;> (subst h; decide)
          simp [wildFrom, h1, hns]
        · rw [if_neg (by simp [h2]), if_neg h3]
          by_cases h4 : isWildcard c = true
          · rw [if_pos ⟨h4, rfl⟩, scan_mid L R hL' hR _ he' (by simp), hcnt]
            simp [wildFrom, h1, h4]
          · rw [if_neg (by simp [h4]), scan_mid L R hL' hR _ he' (by simp), hcnt]
            simp [wildFrom, h1, h4]

end Verif.Ignore
