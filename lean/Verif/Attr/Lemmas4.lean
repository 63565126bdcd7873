import Verif.Attr.Lemmas3
/-! # Reading a file -/
namespace Verif.Attr
open Spec
open Ignore (nextLine nextLine_append Scan scanLoop finishParse escAfter escAfter_false split_line)
open Ignore.Spec (Rule isBlank)
open Wildmatch (isSpace)

theorem plainL_nil : PlainL [] := ⟨by simp, by
  intro l hl
  simp [lines] at hl
  subst hl
  intro h; exact absurd h (by decide), by
  intro l hl
  simp [lines] at hl
  subst hl
  decide⟩

theorem lines_cons {L R : Bytes} (hL : ∀ c ∈ L, c ≠ 10) (hR : ∀ c ∈ R.head?, c = c!"\n") : L ∈ lines (L ++ R) := by
  cases R with
  | nil => rw [List.append_nil, lines_line hL]; simp
  | cons c R =>
    have := hR c rfl
    subst this
    rw [lines_append hL]; simp

/-- the fields a file of rules and macros needs -/
def SRep (rules : List ARule) (m : Macros) (s : Read) : Prop := FRep rules s.rules ∧ MRep m s.macros

theorem expand_nil {sm : Spec.Macros} {as : List Assign} : expand sm as = [] ↔ as = [] := by
  unfold expand
  cases as with
  | nil => simp
  | cons a as => simp

theorem take_attr {L R : Bytes} (hR : ∀ c ∈ R.head?, c = c!"\n") : (L ++ R).take 6 = b!"[attr]" ↔ L.take 6 = b!"[attr]" := by
  rw [List.take_append]
  by_cases h : 6 ≤ L.length
  · rw [show 6 - L.length = 0 by omega]; simp
  · have h2 : L.take 6 ≠ b!"[attr]" := by
      intro e
      have := congrArg List.length e
      rw [List.length_take] at this
      simp at this
      omega
    constructor
    · intro e
      exfalso
      cases R with
      | nil => simp at e; exact h2 (by simpa using e)
      | cons c R =>
        have := hR c rfl
        subst this
        have hm : (10 : UInt8) ∈ L.take 6 ++ (c!"\n" :: R).take (6 - L.length) := by
          refine List.mem_append_right _ ?_
          rw [show 6 - L.length = (5 - L.length) + 1 by omega, List.take_succ_cons]
          simp
        rw [e] at hm
        revert hm; decide
    · intro e; exact absurd e h2

theorem parseLoop_ok (icase : Bool) (below : Option Bytes) (allow : Bool) (n : Nat) : ∀ (scan : Bytes), scan.length ≤ n → PlainL scan → ∀ fuel, scan.length < fuel →
    ∀ stale rules m s, SRep rules m s → ∃ rules' m', parseLoop icase below allow fuel scan stale rules m = .ok (rules', m') ∧ SRep rules' m' (readLines icase below allow s scan) := by
  induction n with
  | zero =>
    intro scan hn _ fuel hf stale rules m s hs
    rw [List.length_eq_zero_iff.mp (Nat.le_zero.mp hn)] at hf ⊢
    obtain ⟨f, rfl⟩ : ∃ f, fuel = f + 1 := ⟨fuel - 1, by simp at hf; omega⟩
    rw [parseLoop, if_pos rfl]
    exact ⟨_, _, rfl, hs⟩
  | succ n ih =>
    intro scan hn hp fuel hf stale rules m s hs
    obtain ⟨f, rfl⟩ : ∃ f, fuel = f + 1 := ⟨fuel - 1, by omega⟩
    rw [parseLoop]
    by_cases hsc : scan = []
    · rw [if_pos hsc, hsc]; exact ⟨_, _, rfl, hs⟩
    rw [if_neg hsc]
    have hpos := List.length_pos_iff.mpr hsc
    have hlone : ¬ (scan = b!"*" ∨ scan = b!".") := by
      rintro (rfl | rfl)
      · exact (hp.last b!"*" (by decide +kernel)).1 (by decide +kernel)
      · exact (hp.last b!"." (by decide +kernel)).2 (by decide +kernel)
    unfold parseOne
    rw [if_neg hlone]
    obtain ⟨e, hbl, hhd⟩ := tw_dw (p := isSpace) scan
    have hrd := readLines_blank (icase := icase) (below := below) (allow := allow) s (b := scan.takeWhile isSpace) hbl (scan.dropWhile isSpace)
    rw [← e] at hrd
    have hpp : PlainL (scan.dropWhile isSpace) := by
      rw [e] at hp
      exact hp.blank hbl
    have hlen : (scan.dropWhile isSpace).length ≤ scan.length := (List.dropWhile_sublist _).length_le
    rw [hrd]
    clear hrd e hbl
    generalize hP : scan.dropWhile isSpace = p at *
    dsimp only
    by_cases hp0 : p = []
    · subst hp0
      rw [if_pos (.inl rfl)]
      dsimp only
      rw [show nextLine [] = [] from rfl]
      obtain ⟨f, rfl⟩ : ∃ f', f = f' + 1 := ⟨f - 1, by omega⟩
      rw [parseLoop, if_pos rfl]
      exact ⟨_, _, rfl, hs⟩
    obtain ⟨L, R, rfl, hL, hR⟩ := split_line p
    have hL0 : L ≠ [] := by
      rintro rfl
      obtain ⟨c, R', rfl⟩ := List.exists_cons_of_ne_nil hp0
      have hc : c = c!"\n" := hR c rfl
      subst hc
      have := hhd c!"\n" rfl
      revert this; decide
    have hLh : L.dropWhile isBlank = L := by
      cases L with
      | nil => exact absurd rfl hL0
      | cons c L =>
        have : isSpace c = false := hhd c rfl
        rw [blank_eq] at this
        rw [List.dropWhile_cons, if_neg (by simp [this])]
    obtain ⟨hst, hnx, hln⟩ := nextLine_step (icase := icase) (below := below) (allow := allow) s hL hR
    have hLp := List.length_pos_iff.mpr hL0
    have hPN : PlainL (nextLine R) := by
      by_cases h : nextLine R = []
      · rw [h]; exact plainL_nil
      · exact hnx hpp h
    have hst : readLines icase below allow s (L ++ R) = readLines icase below allow (readLine icase below allow s L) (nextLine R) := by
      rw [hst]
      split
      · rename_i h
        rw [h]
        unfold readLines
        simp only [lines, List.foldl_cons, List.foldl_nil]
        exact (readLine_blank _ rfl).symm
      · rfl
    have hnext : ∀ stale rules m, SRep rules m (readLine icase below allow s L) →
        ∃ rules' m', parseLoop icase below allow f (nextLine R) stale rules m = .ok (rules', m') ∧ SRep rules' m' (readLines icase below allow s (L ++ R)) := by
      intro stale rules m h
      rw [hst]
      exact ih _ (by omega) hPN _ (by omega) stale rules m _ h
    have hmem := lines_cons hL hR
    by_cases hc : (L ++ R).head? = some c!"#"
    · rw [if_pos (.inr hc)]
      dsimp only
      rw [nextLine_append hL]
      apply hnext
      rw [readLine_blank]
      · exact hs
      · unfold isEmptyLine
        rw [hLh, ← head_append hL0 (b := R), hc]
        simp
    rw [if_neg (by rintro (h | h); exact hp0 h; exact hc h)]
    have hne : isEmptyLine L = false := by
      unfold isEmptyLine
      rw [hLh]
      rw [head_append hL0] at hc
      simp [hc, hL0]
    have hpat := hpp.pattern L hmem hne
    have hmacro : decide ((L ++ R).take 6 = b!"[attr]") = isMacro L := by
      unfold isMacro
      rw [hLh, decide_eq_decide, take_attr hR]
    rw [hmacro]
    obtain ⟨X, hX⟩ : ∃ X, X = if isMacro L = true then L.drop 6 else L := ⟨_, rfl⟩
    have hp1 : (if isMacro L = true then (L ++ R).drop 6 else L ++ R) = X ++ R := by
      rw [hX]
      by_cases h : isMacro L = true
      · rw [if_pos h, if_pos h]
        have : 6 ≤ L.length := by
          unfold isMacro at h
          rw [hLh, decide_eq_true_eq] at h
          have := congrArg List.length h
          rw [List.length_take] at this
          simp at this
          omega
        rw [List.drop_append_of_le_length this]
      · rw [if_neg h, if_neg h]
    rw [hp1]
    have hXL : ∃ a, L = a ++ X := by
      rw [hX]
      split
      · exact ⟨L.take 6, (List.take_append_drop ..).symm⟩
      · exact ⟨[], rfl⟩
    have hpw : patternWord L = firstWord X := by unfold patternWord; rw [hLh, hX]
    obtain ⟨hw1, hw2, hw3⟩ := firstWord_ok X
    generalize hwe : (firstWord X).1 = w at *
    generalize hue : (firstWord X).2 = U at *
    obtain ⟨a, hXL⟩ := hXL
    have hUL : ∀ c ∈ U, c ≠ 10 := by
      intro c hc
      refine hL c ?_
      rw [hXL, hw1]
      exact List.mem_append_right _ (List.mem_append_right _ hc)
    have hUR : U ++ R = [] ∨ (escAfter false w = false ∧ ∀ c ∈ (U ++ R).head?, isSpace c = true) := by
      cases U with
      | cons u U =>
        rcases hw3 with h | h
        · cases h
        · exact .inr ⟨h.1, by simpa using h.2⟩
      | nil =>
        cases R with
        | nil => exact .inl rfl
        | cons c R =>
          have := hR c rfl
          subst this
          refine .inr ⟨escAfter_false ?_, by intro c hc; simp at hc; subst hc; decide⟩
          intro hl
          obtain ⟨w', hw'⟩ := List.getLast?_eq_some_iff.mp hl
          refine hpp.noescape (a ++ w') R ?_
          rw [hXL, hw1, hw']
          simp
    rw [hpw] at hpat
    rw [hwe] at hpat
    rw [hw1, List.append_assoc]
    obtain ⟨q, hq⟩ : ∃ q, q = if (w ++ (U ++ R)).head? = some c!"!" then (w ++ (U ++ R)).tail else w ++ (U ++ R) := ⟨_, rfl⟩
    have hpt := pattern_ok icase below hw2 hUR hpat q hq
    simp only [decide_eq_true_eq, ← hq]
    rw [hpt]
    dsimp only
    obtain ⟨vec, hv1, hv2⟩ := parseAssigns_ok hs.2 hUL hR
    rw [hv1]
    dsimp only
    have hrl : readLine icase below allow s L = if readAssigns U = [] then s else
        if isMacro L then (if allow then { s with macros := fun n => if n = (readPattern icase below w).pattern then some (expand s.macros (readAssigns U)) else s.macros n } else s)
        else { s with rules := s.rules ++ [(readPattern icase below w, expand s.macros (readAssigns U))] } := by
      unfold readLine
      rw [hne, hpw, hwe, hue]
      simp only [Bool.false_eq_true, false_or]
    have hnil : vec = [] ↔ readAssigns U = [] := by rw [hv2.isNil, expand_nil]
    by_cases hv : vec = []
    · rw [if_pos hv]
      apply hnext
      rw [hrl, if_pos (hnil.mp hv)]
      exact hs
    · rw [if_neg hv]
      rw [if_neg (fun h => hv (hnil.mpr h))] at hrl
      by_cases hm : isMacro L = true
      · rw [if_pos hm] at hrl ⊢
        by_cases ha : allow = true
        · rw [if_pos ha] at hrl ⊢
          apply hnext
          rw [hrl]
          exact ⟨hs.1, hs.2.put hv2 hv⟩
        · rw [if_neg ha] at hrl ⊢
          apply hnext
          rw [hrl]
          exact hs
      · rw [if_neg hm] at hrl ⊢
        apply hnext
        rw [hrl]
        refine ⟨hs.1.snoc hv2, hs.2⟩

theorem parseBuffer_ok (icase : Bool) (below : Option Bytes) (allow : Bool) {m : Macros} {sm : Spec.Macros} (hm : MRep m sm) {t : Bytes} (ht : Plain t) :
    ∃ rules m', parseBuffer icase below allow m t = .ok (rules, m') ∧ FRep rules (readFile icase below allow sm t).rules ∧ MRep m' (readFile icase below allow sm t).macros := by
  obtain ⟨r, m', h1, h2, h3⟩ := parseLoop_ok icase below allow t.length t (Nat.le_refl _) ⟨ht.noescape, ht.pattern, ht.last⟩ (t.length + 1) (by omega) none [] m ⟨sm, []⟩ ⟨.nil, hm⟩
  exact ⟨r, m', h1, h2, h3⟩

end Verif.Attr
