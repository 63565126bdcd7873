import Verif.Message.Model
import Verif.Message.Spec
/-! # C39: `git_message_prettify` -/
namespace Verif.Message
open Verif.Message.Spec

theorem space_iff : ∀ c : UInt8, Strtol.isSpace c = decide (Space c) := by decide +kernel

theorem rtrim_snoc (l : Bytes) (c : UInt8) : rtrim (l ++ [c]) = if Space c then rtrim l else l ++ [c] := by
  have hlen : ∀ (l' : Bytes) n, n ≤ l.length → rtrim.len (l ++ l') n = rtrim.len l n := by
    intro l' n
    induction n with
    | zero => intro _; rfl
    | succ n ih =>
      intro h
      rw [rtrim.len, rtrim.len, List.getElem?_append_left (by omega), ih (by omega)]
  have hle : ∀ (l : Bytes) n, rtrim.len l n ≤ n := by
    intro l n
    induction n with
    | zero => simp [rtrim.len]
    | succ n ih =>
      rw [rtrim.len]
      split
      · split <;> omega
      · omega
  unfold rtrim
  rw [List.length_append, List.length_singleton, rtrim.len]
  simp only [List.getElem?_concat_length, space_iff]
  by_cases h : Space c
  · simp only [h, decide_true, if_true]
    rw [hlen _ _ (Nat.le_refl _), List.take_append_of_le_length (hle l l.length)]
  · simp only [h, decide_false, if_false, Bool.false_eq_true]
    rw [List.take_of_length_le (by simp)]

theorem rtrim_eq (l : Bytes) : rtrim l = trimEnd l := by
  induction l using list_snoc_induction with
  | hnil => rfl
  | hsnoc l c ih =>
    rw [rtrim_snoc]
    unfold trimEnd
    rw [List.reverse_append]
    simp only [List.reverse_cons, List.reverse_nil, List.nil_append, List.cons_append, List.dropWhile_cons]
    by_cases h : Space c
    · simp only [h, decide_true, if_true]; exact ih
    · simp [h]

theorem trimEnd_nl (l : Bytes) : trimEnd (l ++ b!"\n") = trimEnd l := by
  rw [← rtrim_eq, ← rtrim_eq, rtrim_snoc, if_pos (by decide)]

/-! ### lines -/

theorem lines_ne (m : Bytes) : lines m ≠ [] := by
  cases m with
  | nil => simp [lines]
  | cons c cs =>
    rw [lines]
    split
    · simp
    · split <;> simp

theorem lines_append (l r : Bytes) (h : c!"\n" ∉ l) : lines (l ++ c!"\n" :: r) = l :: lines r := by
  induction l with
  | nil => simp [lines]
  | cons c l ih =>
    rw [List.cons_append, lines, ih (fun hh => h (by simp [hh])), if_neg (by intro e; exact h (by simp [e]))]

theorem lines_noNl (l : Bytes) (h : c!"\n" ∉ l) : lines l = [l] := by
  induction l with
  | nil => rfl
  | cons c l ih => rw [lines, ih (fun hh => h (by simp [hh])), if_neg (by intro e; exact h (by simp [e]))]

/-- the loop on a list of lines; `pend` says that blank lines are pending, `seen` that something has been written -/
def loopL : Bool → Bool → List Bytes → List Bytes
  | _, _, [] => []
  | seen, pend, l :: ls =>
    if l = [] then loopL seen true ls
    else (if pend && seen then [[]] else []) ++ l :: loopL true false ls

theorem unlines_append (a b : List Bytes) : unlines (a ++ b) = unlines a ++ unlines b := by simp [unlines]
@[simp] theorem unlines_nil : unlines [] = [] := rfl
theorem unlines_cons (a : Bytes) (b : List Bytes) : unlines (a :: b) = a ++ b!"\n" ++ unlines b := by simp [unlines]

theorem loopL_snoc_nil (s p : Bool) (ls : List Bytes) : loopL s p (ls ++ [[]]) = loopL s p ls := by
  induction ls generalizing s p with
  | nil => simp [loopL]
  | cons l ls ih =>
    rw [List.cons_append, loopL, loopL]
    split
    · rw [ih]
    · rw [ih]

theorem firstLine (m : Bytes) (h : m ≠ []) :
    (∃ l r, c!"\n" ∉ l ∧ m = l ++ c!"\n" :: r ∧ m.take (lineLength m) = l ++ b!"\n" ∧ m.drop (lineLength m) = r ∧ lines m = l :: lines r) ∨
    (c!"\n" ∉ m ∧ m.take (lineLength m) = m ∧ m.drop (lineLength m) = [] ∧ lines m = [m]) := by
  by_cases hn : c!"\n" ∈ m
  · left
    obtain ⟨l, r, e, hl⟩ : ∃ l r, m = l ++ c!"\n" :: r ∧ c!"\n" ∉ l := by
      clear h
      induction m with
      | nil => simp at hn
      | cons c m ih =>
        by_cases hc : c = c!"\n"
        · exact ⟨[], m, by simp [hc], by simp⟩
        · obtain ⟨l, r, e, hl⟩ := ih (by simpa [Ne.symm hc] using hn)
          exact ⟨c :: l, r, by simp [e], by simp [hl, Ne.symm hc]⟩
    subst e
    have htw : (l ++ c!"\n" :: r).takeWhile (· ≠ c!"\n") = l := by
      refine takeWhile_append_stop _ _ _ ?_ ?_
      · intro y hy; simp; rintro rfl; exact hl hy
      · intro y hy; simp at hy; simp [← hy]
    have hL : lineLength (l ++ c!"\n" :: r) = l.length + 1 := by unfold lineLength; rw [if_pos hn, htw]
    refine ⟨l, r, hl, rfl, ?_, ?_, lines_append l r hl⟩
    · rw [hL, show l ++ c!"\n" :: r = (l ++ b!"\n") ++ r by simp, List.take_append_of_le_length (by simp),
        List.take_of_length_le (by simp)]
    · rw [hL]; simp
  · right
    have hL : lineLength m = m.length := by unfold lineLength; rw [if_neg hn]
    exact ⟨hn, by rw [hL]; simp, by rw [hL]; simp, lines_noNl m hn⟩

theorem loop_eq (strip : Bool) (cc : UInt8) (hcc : cc ≠ c!"\n") (fuel : Nat) (m : Bytes) (e : Nat) (out : Bytes) (hf : m.length < fuel) :
    loop strip cc fuel m e out =
      out ++ unlines (loopL (decide (out ≠ [])) (decide (e > 0)) ((kept strip cc (lines m)).map trimEnd)) := by
  induction fuel generalizing m e out with
  | zero => omega
  | succ fuel ih =>
    rw [loop]
    by_cases hm : m = []
    · subst hm
      simp [lines, kept, Comment, trimEnd, loopL]
    rw [if_neg hm]
    dsimp only
    -- the first line `l`, and what follows
    obtain ⟨l, r, hhead, htrim, hdrop, hlt, hlines⟩ : ∃ l r, (m.head? = some cc ↔ Comment cc l) ∧
        rtrim (m.take (lineLength m)) = trimEnd l ∧ m.drop (lineLength m) = r ∧ r.length < m.length ∧
        ∀ (s p : Bool), loopL s p ((kept strip cc (lines m)).map trimEnd) = loopL s p ((kept strip cc (l :: lines r)).map trimEnd) := by
      rcases firstLine m hm with ⟨l, r, h1, h2, h3, h4, h5⟩ | ⟨h1, h2, h3, h4⟩
      · refine ⟨l, r, ?_, by rw [h3, rtrim_eq, trimEnd_nl], h4, by rw [h2]; simp; omega, by intro s p; rw [h5]⟩
        rw [h2]
        unfold Comment
        cases l with
        | nil => simp [Ne.symm hcc]
        | cons a l => simp
      · refine ⟨m, [], Iff.rfl, by rw [h2, rtrim_eq], h3, by simpa using List.length_pos_iff.mpr hm, ?_⟩
        intro s p
        rw [h4, lines]
        have : (kept strip cc [m, []]).map trimEnd = (kept strip cc [m]).map trimEnd ++ [[]] := by
          have e0 : kept strip cc [[]] = [[]] := by
            unfold kept
            rw [List.filter_cons, if_pos (by simp [Comment])]; rfl
          have e1 : kept strip cc [m, []] = kept strip cc [m] ++ kept strip cc [[]] := by
            unfold kept; rw [← List.filter_append]; rfl
          rw [e1, e0, List.map_append]; rfl
        rw [this, loopL_snoc_nil]
    rw [htrim, hdrop, hlines]
    by_cases hcom : strip = true ∧ m.head? = some cc
    · rw [if_pos hcom, ih _ _ _ (by omega)]
      have : kept strip cc (l :: lines r) = kept strip cc (lines r) := by
        unfold kept
        rw [List.filter_cons, if_neg (by simp [hcom.1, hhead.mp hcom.2])]
      rw [this]
    · rw [if_neg hcom]
      have hk : kept strip cc (l :: lines r) = l :: kept strip cc (lines r) := by
        unfold kept
        rw [List.filter_cons, if_pos]
        simp only [Bool.not_eq_true', Bool.and_eq_false_iff, decide_eq_false_iff_not]
        by_cases hs : strip = true
        · right; intro hc; exact hcom ⟨hs, hhead.mpr hc⟩
        · left; simpa using hs
      rw [hk, List.map_cons, loopL]
      by_cases hb : trimEnd l = []
      · rw [if_pos hb, hb, if_pos (by rfl), ih _ _ _ (by omega)]
        simp
      · rw [if_neg hb, if_neg (by simpa using hb), ih _ _ _ (by omega)]
        have h1 : decide ((if e > 0 ∧ out.length > 0 then out ++ b!"\n" else out) ++ trimEnd l ++ b!"\n" ≠ []) = true := by simp
        rw [h1]
        have h2 : (if e > 0 ∧ out.length > 0 then out ++ b!"\n" else out) =
            out ++ unlines (if (decide (e > 0) && decide (out ≠ [])) = true then [[]] else []) := by
          by_cases he : e > 0 <;> by_cases ho : out = [] <;> simp [he, ho, unlines, List.length_pos_iff]
        rw [h2, unlines_append, unlines_cons]
        simp

/-! ### the loop collapses blank lines -/

theorem dropWhile_rev_snoc (ls : List Bytes) (l : Bytes) (h : l ≠ []) :
    (((ls ++ [l])).reverse.dropWhile (·.isEmpty)).reverse = ls ++ [l] := by
  rw [List.reverse_append]
  simp [List.dropWhile_cons, h]

def trimLines (ls : List Bytes) : List Bytes := ((ls.reverse).dropWhile (·.isEmpty)).reverse

theorem trimLines_cons (l : Bytes) (ls : List Bytes) : trimLines (l :: ls) = if trimLines ls = [] then (if l = [] then [] else [l]) else l :: trimLines ls := by
  unfold trimLines
  rw [List.reverse_cons, List.dropWhile_append]
  by_cases h : (ls.reverse.dropWhile (·.isEmpty)) = []
  · by_cases hl : l = [] <;> simp [h, hl]
  · have : (ls.reverse.dropWhile (·.isEmpty)).isEmpty = false := by
      cases hh : ls.reverse.dropWhile (·.isEmpty) with
      | nil => exact absurd hh h
      | cons a b => rfl
    simp [this, h]

/-- with output already written: the remaining lines, a blank line before them when blanks are pending -/
theorem loopL_true (pend : Bool) (ls : List Bytes) :
    loopL true pend ls = if trimLines ls = [] then [] else collapse ((if pend then [[]] else []) ++ trimLines ls) := by
  induction ls generalizing pend with
  | nil => simp [loopL, trimLines]
  | cons l ls ih =>
    rw [loopL, trimLines_cons]
    by_cases hl : l = []
    · subst hl
      rw [if_pos rfl, ih]
      by_cases ht : trimLines ls = []
      · simp [ht]
      · rw [if_neg ht, if_neg ht]
        cases pend with
        | true => simp [collapse]
        | false => simp
    · rw [if_neg hl, ih]
      by_cases ht : trimLines ls = []
      · simp [ht, hl]
        cases pend <;> simp [collapse, hl]
      · rw [if_neg ht, if_neg ht]
        cases pend <;> simp [collapse, hl]

theorem loopL_false (pend : Bool) (ls : List Bytes) : loopL false pend ls = collapse (trimLines (ls.dropWhile (·.isEmpty))) := by
  induction ls generalizing pend with
  | nil => simp [loopL, trimLines, collapse]
  | cons l ls ih =>
    rw [loopL, List.dropWhile_cons]
    by_cases hl : l = []
    · subst hl; rw [if_pos rfl, ih]; simp
    · have hb : l.isEmpty = false := by cases l with | nil => exact absurd rfl hl | cons => rfl
      rw [if_neg hl, hb, loopL_true]
      simp only [Bool.false_eq_true, if_false, trimLines_cons]
      by_cases ht : trimLines ls = []
      · simp [ht, hl, collapse]
      · simp [ht, hl, collapse]

/-- **C39.** The clean-up is the one of the specification: comment lines are dropped exactly when asked for, trailing white space is
removed from every line, blank lines are removed at both ends and each run of them inside becomes one; every line ends with a newline. -/
theorem C39_prettify (m : Bytes) (strip : Bool) (cc : UInt8) (hcc : cc ≠ c!"\n") : prettify m strip cc = clean strip cc m := by
  unfold prettify
  rw [loop_eq strip cc hcc _ _ _ _ (by omega)]
  simp only [ne_eq, not_true, decide_false, List.nil_append, Nat.lt_irrefl, gt_iff_lt, loopL_false]
  rfl

/-! ### shape of the result -/

/-- what the lines of a clean message satisfy -/
structure Clean (ls : List Bytes) : Prop where
  noNewline : ∀ l ∈ ls, c!"\n" ∉ l
  noTrailing : ∀ l ∈ ls, ∀ c, l.getLast? = some c → ¬ Space c
  first : ls.head? ≠ some []
  last : ls.getLast? ≠ some []
  runs : ∀ a b, ls ≠ a ++ [[], []] ++ b

theorem collapse_mem (ls : List Bytes) : ∀ l ∈ collapse ls, l ∈ ls := by
  induction ls with
  | nil => simp [collapse]
  | cons l ls ih =>
    rw [collapse]
    split
    · intro x hx; exact List.mem_cons_of_mem _ (ih x hx)
    · intro x hx
      rcases List.mem_cons.mp hx with rfl | hx
      · simp
      · exact List.mem_cons_of_mem _ (ih x hx)

theorem collapse_head (ls : List Bytes) : (collapse ls).head? = ls.head? := by
  induction ls with
  | nil => rfl
  | cons l ls ih =>
    rw [collapse]
    split
    · rename_i h; rw [ih, h.2]; simp [h.1]
    · rfl

theorem collapse_last (ls : List Bytes) : (collapse ls).getLast? = ls.getLast? := by
  induction ls with
  | nil => rfl
  | cons l ls ih =>
    rw [collapse]
    split
    · rename_i h
      rw [ih]
      cases ls with
      | nil => simp at h
      | cons a b => simp
    · cases ls with
      | nil => simp [collapse]
      | cons a b =>
        have : collapse (a :: b) ≠ [] := by
          intro e
          have := collapse_head (a :: b)
          rw [e] at this; simp at this
        rw [List.getLast?_cons, ih]
        simp [List.getLast?_cons]

theorem collapse_runs (ls : List Bytes) : ∀ a b, collapse ls ≠ a ++ [[], []] ++ b := by
  induction ls with
  | nil => intro a b; simp [collapse]
  | cons l ls ih =>
    intro a b
    rw [collapse]
    split
    · exact ih a b
    · rename_i h
      intro e
      cases a with
      | nil =>
        simp at e
        obtain ⟨rfl, e⟩ := e
        apply h
        refine ⟨rfl, ?_⟩
        rw [← collapse_head, e]; rfl
      | cons x a =>
        simp at e
        exact ih a b (by simpa using e.2)

theorem trimEnd_last (l : Bytes) (c : UInt8) (h : (trimEnd l).getLast? = some c) : ¬ Space c := by
  unfold trimEnd at h
  rw [List.getLast?_reverse] at h
  have := dropWhile_head _ _ c h
  simpa using this

theorem trimEnd_sub (l : Bytes) : ∀ c ∈ trimEnd l, c ∈ l := by
  intro c hc
  unfold trimEnd at hc
  rw [List.mem_reverse] at hc
  have := (List.dropWhile_sublist _).mem hc
  simpa using this

theorem lines_noNl_mem (m : Bytes) : ∀ l ∈ lines m, c!"\n" ∉ l := by
  induction m with
  | nil => simp [lines]
  | cons c m ih =>
    rw [lines]
    split
    · intro l hl
      rcases List.mem_cons.mp hl with rfl | hl
      · simp
      · exact ih l hl
    · rename_i hc
      cases h : lines m with
      | nil => exact absurd h (lines_ne m)
      | cons a b =>
        rw [h] at ih
        intro l hl
        rcases List.mem_cons.mp hl with rfl | hl
        · have := ih a (by simp)
          simp [this, Ne.symm hc]
        · exact ih l (by simp [hl])

theorem dropWhile_headNe (ls : List Bytes) : (ls.dropWhile (·.isEmpty)).head? ≠ some [] := by
  intro h
  have := dropWhile_head _ _ _ h
  simp at this

theorem squeeze_clean (ls : List Bytes) (h1 : ∀ l ∈ ls, c!"\n" ∉ l) (h2 : ∀ l ∈ ls, ∀ c, l.getLast? = some c → ¬ Space c) :
    Clean (squeeze ls) := by
  have hmem : ∀ l ∈ squeeze ls, l ∈ ls := by
    intro l hl
    have := collapse_mem _ l hl
    rw [List.mem_reverse] at this
    have := (List.dropWhile_sublist _).mem this
    rw [List.mem_reverse] at this
    exact (List.dropWhile_sublist _).mem this
  refine ⟨fun l hl => h1 l (hmem l hl), fun l hl => h2 l (hmem l hl), ?_, ?_, ?_⟩
  · unfold squeeze
    rw [collapse_head]
    generalize hd : ls.dropWhile (·.isEmpty) = d
    have hh : d.head? ≠ some [] := by rw [← hd]; exact dropWhile_headNe ls
    have : ((d.reverse).dropWhile (·.isEmpty)).reverse = trimLines d := rfl
    rw [this]
    cases d with
    | nil => simp [trimLines]
    | cons a d =>
      rw [trimLines_cons]
      have ha : a ≠ [] := by simpa using hh
      split <;> simp [ha]
  · unfold squeeze
    rw [collapse_last, List.getLast?_reverse]
    exact dropWhile_headNe _
  · exact collapse_runs _

/-- **C39.** The result: no line ends in white space, no blank line at either end, no two blank lines in a row, and the text is empty or
ends with one newline behind a line that is not blank. -/
theorem C39_shape (m : Bytes) (strip : Bool) (cc : UInt8) (hcc : cc ≠ c!"\n") :
    ∃ ls, prettify m strip cc = unlines ls ∧ Clean ls := by
  refine ⟨_, C39_prettify m strip cc hcc, squeeze_clean _ ?_ ?_⟩
  · intro l hl
    obtain ⟨l', h1, rfl⟩ := List.mem_map.mp hl
    have := lines_noNl_mem m l' (List.mem_filter.mp h1).1
    intro hh; exact this (trimEnd_sub l' _ hh)
  · intro l hl c hc
    obtain ⟨l', h1, rfl⟩ := List.mem_map.mp hl
    exact trimEnd_last l' c hc

/-- no comment line is left when they are stripped, and the lines that are not blank are exactly those of the message that are not
comments, in order, without their trailing white space -/
theorem C39_content (m : Bytes) (strip : Bool) (cc : UInt8) (hcc : cc ≠ c!"\n") :
    ∃ ls, prettify m strip cc = unlines ls ∧
      ls.filter (· ≠ []) = (((lines m).filter (fun l => !(strip && decide (Comment cc l)))).map trimEnd).filter (· ≠ []) := by
  refine ⟨_, C39_prettify m strip cc hcc, ?_⟩
  have hc : ∀ ls : List Bytes, (collapse ls).filter (· ≠ []) = ls.filter (· ≠ []) := by
    intro ls
    induction ls with
    | nil => rfl
    | cons l ls ih =>
      rw [collapse]
      split
      · rename_i h; rw [ih]; simp [h.1]
      · rw [List.filter_cons, List.filter_cons, ih]
  have hd : ∀ ls : List Bytes, (ls.dropWhile (·.isEmpty)).filter (· ≠ []) = ls.filter (· ≠ []) := by
    intro ls
    induction ls with
    | nil => rfl
    | cons l ls ih =>
      rw [List.dropWhile_cons]
      by_cases h : l = []
      · subst h; simpa using ih
      · rw [if_neg (by simpa using h)]
  unfold squeeze
  rw [hc, List.filter_reverse, hd, ← List.filter_reverse, List.reverse_reverse, hd]
  rfl

/-- lines of a text made of lines -/
theorem lines_unlines (ls : List Bytes) (h : ∀ l ∈ ls, c!"\n" ∉ l) : lines (unlines ls) = ls ++ [[]] := by
  induction ls with
  | nil => rfl
  | cons l ls ih =>
    rw [unlines_cons, List.append_assoc, List.singleton_append, lines_append _ _ (h l (by simp)), ih (fun x hx => h x (by simp [hx]))]
    rfl

theorem trimEnd_id (l : Bytes) (h : ∀ c, l.getLast? = some c → ¬ Space c) : trimEnd l = l := by
  unfold trimEnd
  have : l.reverse.dropWhile (fun c => decide (Space c)) = l.reverse := by
    cases hr : l.reverse with
    | nil => rfl
    | cons c r =>
      have : l.getLast? = some c := by rw [← List.head?_reverse, hr]; rfl
      simp [h c this]
  rw [this, List.reverse_reverse]

theorem loopL_clean (pend seen : Bool) (ls : List Bytes) (hr : ∀ a b, ls ≠ a ++ [[], []] ++ b) (hl : ls.getLast? ≠ some [])
    (hp : pend = true → ls.head? ≠ some []) (hs : seen = false → ls.head? ≠ some []) :
    loopL seen pend ls = (if pend && seen && !ls.isEmpty then [[]] else []) ++ ls := by
  induction ls generalizing pend seen with
  | nil => simp [loopL]
  | cons l ls ih =>
    have hr' : ∀ a b, ls ≠ a ++ [[], []] ++ b := by
      intro a b e; exact hr (l :: a) b (by simp [e])
    have hl' : ls.getLast? ≠ some [] := by
      cases ls with
      | nil => simp
      | cons x y => simpa using hl
    rw [loopL]
    by_cases h : l = []
    · subst h
      have hse : seen = true := by cases seen with | true => rfl | false => exact absurd rfl (hs rfl)
      have hpe : pend = false := by cases pend with | false => rfl | true => exact absurd rfl (hp rfl)
      subst hse hpe
      have hh : ls.head? ≠ some [] := by
        intro e
        cases ls with
        | nil => simp at e
        | cons x y => simp at e; subst e; exact hr [] y (by simp)
      have hne : ls.isEmpty = false := by
        cases ls with
        | nil => simp at hl
        | cons => rfl
      rw [if_pos rfl, ih _ _ hr' hl' (fun _ => hh) (by simp)]
      simp [hne]
    · rw [if_neg h, ih _ _ hr' hl' (by simp) (by simp)]
      simp

/-- **C39.** Cleaning up twice changes nothing. -/
theorem C39_idempotent (m : Bytes) (strip : Bool) (cc : UInt8) (hcc : cc ≠ c!"\n") :
    prettify (prettify m strip cc) strip cc = prettify m strip cc := by
  have e1 := C39_prettify m strip cc hcc
  have hcl : Clean (squeeze ((kept strip cc (lines m)).map trimEnd)) := by
    refine squeeze_clean _ ?_ ?_
    · intro l hl
      obtain ⟨l', h1, rfl⟩ := List.mem_map.mp hl
      have := lines_noNl_mem m l' (List.mem_filter.mp h1).1
      intro hh; exact this (trimEnd_sub l' _ hh)
    · intro l hl c hc
      obtain ⟨l', h1, rfl⟩ := List.mem_map.mp hl
      exact trimEnd_last l' c hc
  have hkeep : ∀ l ∈ squeeze ((kept strip cc (lines m)).map trimEnd), ¬ (strip = true ∧ Comment cc l) := by
    intro l hl ⟨hs, hcom⟩
    have h1 := collapse_mem _ l hl
    rw [List.mem_reverse] at h1
    have h1 := (List.dropWhile_sublist _).mem h1
    rw [List.mem_reverse] at h1
    have h1 := (List.dropWhile_sublist _).mem h1
    obtain ⟨l', h2, rfl⟩ := List.mem_map.mp h1
    have h3 := (List.mem_filter.mp h2).2
    simp [hs] at h3
    apply h3
    -- the beginning of the line is not changed
    unfold Comment at hcom ⊢
    have hp : trimEnd l' <+: l' := by
      unfold trimEnd
      rw [← List.reverse_suffix, List.reverse_reverse]
      exact List.dropWhile_suffix _
    obtain ⟨t, ht⟩ := hp
    rw [← ht]
    cases h : trimEnd l' with
    | nil => rw [h] at hcom; simp at hcom
    | cons a b => rw [h] at hcom; simpa using hcom
  rw [e1]
  unfold clean
  generalize squeeze ((kept strip cc (lines m)).map trimEnd) = ls at *
  unfold prettify
  rw [loop_eq strip cc hcc _ _ _ _ (by omega), lines_unlines ls hcl.noNewline]
  have hk : kept strip cc (ls ++ [[]]) = ls ++ [[]] := by
    unfold kept
    rw [List.filter_eq_self]
    intro l hl
    rcases List.mem_append.mp hl with hl | hl
    · have := hkeep l hl
      cases strip with
      | false => rfl
      | true => simpa using this
    · simp at hl; subst hl; simp [Comment]
  have ht : (ls ++ [[]]).map trimEnd = ls ++ [[]] := by
    rw [List.map_append]
    congr 1
    conv => rhs; rw [← List.map_id ls]
    exact List.map_congr_left (fun l hl => trimEnd_id l (hcl.noTrailing l hl))
  rw [hk, ht, loopL_snoc_nil]
  have := loopL_clean false false ls hcl.runs hcl.last (by simp) (fun _ => hcl.first)
  simp [this]

example : prettify b!"\n\n title \t\n\n\n#c\n body" true c!"#" = b!" title\n\n body\n" := by decide +kernel
example : prettify b!"a\n# b\n \nc" false c!"#" = b!"a\n# b\n\nc\n" := by decide +kernel
example : Clean [b!"a", [], b!"b"] := by
  refine ⟨by decide, ?_, by decide, by decide, ?_⟩
  · intro l hl c hc; simp at hl; rcases hl with rfl | rfl | rfl <;> simp at hc <;> subst hc <;> decide
  · intro a b e
    have h := congrArg List.length e
    match a, e with
    | [], e => simp at e
    | [_], e => simp at e
    | _ :: _ :: a, e => simp at h; omega

end Verif.Message
