import Verif.Ignore.Lemmas
/-! # Parsing a whole file -/
namespace Verif.Ignore
open Spec (Rule Env hasWild stripBlanks backslashes unescape dropCr readLine readLast Same Globs Undoes addRule Plain)
open Wildmatch (wildmatch isSpace)

theorem trim_full (p : Bytes) : trimLoop p p.length = stripBlanks p := by
  rw [trim_eq p _ (Nat.le_refl _), List.take_length]; rfl

theorem nextLine_append {L R : Bytes} (hL : ∀ c ∈ L, c ≠ 10) : nextLine (L ++ R) = nextLine R := by
  unfold nextLine
  congr 1
  induction L with
  | nil => rfl
  | cons c L ih =>
    have : c ≠ 10 := hL c (List.mem_cons_self ..)
    rw [List.cons_append, List.dropWhile_cons_of_pos (by simp [this])]
    exact ih (fun x hx => hL x (List.mem_cons_of_mem _ hx))

/-- one line of a file -/
theorem parse_line (icase : Bool) (below : Option Bytes) (L R : Bytes) (hL : ∀ c ∈ L, LineByte c) (hR : ∀ c ∈ R.head?, c = c!"\n")
    (he : L.getLast? ≠ some c!"\\" ∨ R = []) (hne : L ≠ []) (hopt : ¬ (R = [] ∧ (L = b!"*" ∨ L = b!"."))) :
    (∃ r, readLine icase below L = some r ∧ parseOne below (L ++ R) = .rule { r with icase := false } R) ∨
    (readLine icase below L = none ∧ ∃ b, parseOne below (L ++ R) = .notFound b ∧ (b = R ∨ b = nextLine R)) := by
  have hLn : ∀ c ∈ L, c ≠ 10 := fun c h => (hL c h).1
  have ho : ¬ (L ++ R = b!"*" ∨ L ++ R = b!".") := by
    intro h
    have : R = [] := by
      rcases h with h | h
      all_goals
        have := congrArg List.length h
        have hp := List.length_pos_iff.mpr hne
        simp at this
        exact List.length_eq_zero_iff.mp (by omega)
    refine hopt ⟨this, ?_⟩
    rwa [this, List.append_nil] at h
  obtain ⟨c, L', rfl⟩ := List.exists_cons_of_ne_nil hne
  rw [parseOne, if_neg ho]
  by_cases hc : c = c!"#"
  · right
    subst hc
    refine ⟨by simp [readLine], nextLine R, ?_, .inr rfl⟩
    rw [if_pos (by simp), nextLine_append hLn]
  · by_cases hr : c = c!"\r" ∧ (L' ++ R).head? = some c!"\n"
    · obtain ⟨rfl, hr⟩ := hr
      have hL' : L' = [] := by
        cases L' with
        | nil => rfl
        | cons d L' =>
          simp at hr
          exact absurd hr (hLn d (by simp))
      subst hL'
      right
      refine ⟨rfl, nextLine R, ?_, .inr rfl⟩
      rw [if_pos (by right; right; right; exact ⟨rfl, by simpa using hr⟩), nextLine_append hLn]
    · have hc10 : c ≠ 10 := hLn c (by simp)
      rw [if_neg (by
        simp only [List.cons_append, List.head?_cons, List.tail_cons, Option.some.injEq]
        rintro (h | h | h | h)
        · cases h
        · exact hc h
        · exact hc10 h
        · exact hr h)]
      simp only [List.cons_append, List.head?_cons, Option.some.injEq, List.tail_cons]
      rw [readLine, if_neg (by simp [hc])]
      simp only [List.head?_cons, Option.some.injEq, List.tail_cons]
      -- the pattern without its exclamation mark
      have key : ∀ q : Bytes, (∀ x ∈ q, LineByte x) → (escAfter false q = false ∨ R = []) → ∀ neg : Bool,
          (∃ r, (if stripBlanks (dropCr (if q.head? = some c!"/" then q.tail else q)) = [] then none
            else some { pattern := unescape (if decide ((stripBlanks (dropCr (if q.head? = some c!"/" then q.tail else q))).getLast? = some c!"/") = true then (stripBlanks (dropCr (if q.head? = some c!"/" then q.tail else q))).dropLast else stripBlanks (dropCr (if q.head? = some c!"/" then q.tail else q))), below := below, negative := neg, directory := decide ((stripBlanks (dropCr (if q.head? = some c!"/" then q.tail else q))).getLast? = some c!"/"), fullpath := decide ((if decide ((stripBlanks (dropCr (if q.head? = some c!"/" then q.tail else q))).getLast? = some c!"/") = true then 2 else 1) ≤ q.count c!"/"), wild := hasWild q, icase := icase : Rule }) = some r ∧
            finishParse below neg (scanLoop true (q ++ R) ⟨[], false, false, false, 0⟩).1 (scanLoop true (q ++ R) ⟨[], false, false, false, 0⟩).2 = .rule { r with icase := false } R) ∨
          ((if stripBlanks (dropCr (if q.head? = some c!"/" then q.tail else q)) = [] then none
            else some { pattern := unescape (if decide ((stripBlanks (dropCr (if q.head? = some c!"/" then q.tail else q))).getLast? = some c!"/") = true then (stripBlanks (dropCr (if q.head? = some c!"/" then q.tail else q))).dropLast else stripBlanks (dropCr (if q.head? = some c!"/" then q.tail else q))), below := below, negative := neg, directory := decide ((stripBlanks (dropCr (if q.head? = some c!"/" then q.tail else q))).getLast? = some c!"/"), fullpath := decide ((if decide ((stripBlanks (dropCr (if q.head? = some c!"/" then q.tail else q))).getLast? = some c!"/") = true then 2 else 1) ≤ q.count c!"/"), wild := hasWild q, icase := icase : Rule }) = none ∧
            ∃ b, finishParse below neg (scanLoop true (q ++ R) ⟨[], false, false, false, 0⟩).1 (scanLoop true (q ++ R) ⟨[], false, false, false, 0⟩).2 = .notFound b ∧ (b = R ∨ b = nextLine R)) := by
        intro q hq hesc neg
        obtain ⟨e, hs⟩ := scan_line q R hq hR hesc
        rw [hs]
        generalize (if q.head? = some c!"/" then q.tail else q) = t
        unfold finishParse
        dsimp only
        have hcr : (if t.getLast? = some c!"\r" then t.dropLast else t) = dropCr t := rfl
        rw [hcr, trim_full]
        by_cases hb : stripBlanks (dropCr t) = []
        · right
          refine ⟨by rw [if_pos hb], R, ?_, .inl rfl⟩
          by_cases h1 : t = []
          · rw [if_pos h1]
          · rw [if_neg h1]
            by_cases h2 : dropCr t = []
            · rw [if_pos h2]
            · rw [if_neg h2, if_pos hb]
        · left
          have h2 : dropCr t ≠ [] := by intro h; rw [h] at hb; exact hb rfl
          have h1 : t ≠ [] := by intro h; rw [h] at h2; exact h2 rfl
          refine ⟨_, by rw [if_neg hb], ?_⟩
          rw [if_neg h1, if_neg h2, if_neg hb]
          congr 1
          generalize stripBlanks (dropCr t) = B
          generalize hd : decide (B.getLast? = some c!"/") = d
          rw [unescape_eq]
          congr 1
          cases d
          · simp
          · simp only [true_and, if_true]
            by_cases hk : q.count c!"/" ≤ 1
            · rw [if_pos hk]; symm; rw [decide_eq_false_iff_not]; omega
            · rw [if_neg hk]; rw [decide_eq_decide]; omega
      have hesc : escAfter false (c :: L') = false ∨ R = [] := he.imp escAfter_false id
      by_cases hn : c = c!"!"
      · have := key L' (fun x hx => hL x (List.mem_cons_of_mem _ hx)) (by
          rcases hesc with h | h
          · left; simpa [escAfter, hn] using h
          · exact .inr h) true
        simpa [hn] using this
      · have := key (c :: L') hL hesc false
        simpa [hn] using this

/-! ## Lines -/

/-- the rules on lines, the last of which has no newline -/
def rulesOfLines (icase : Bool) (below : Option Bytes) (ls : List Bytes) : List Rule :=
  ls.dropLast.filterMap (readLine icase below) ++ (ls.getLast?.bind (readLast icase below)).toList

theorem rulesOfLines_cons (icase : Bool) (below : Option Bytes) (x : Bytes) {ls : List Bytes} (h : ls ≠ []) :
    rulesOfLines icase below (x :: ls) = (readLine icase below x).toList ++ rulesOfLines icase below ls := by
  obtain ⟨y, ys, rfl⟩ := List.exists_cons_of_ne_nil h
  unfold rulesOfLines
  rw [List.dropLast_cons_of_ne_nil (by simp), List.filterMap_cons]
  cases readLine icase below x <;> simp [List.getLast?_cons]

theorem go_ne_nil (t cur : Bytes) (skip : Bool) : Spec.lines.go t cur skip ≠ [] := by
  induction t generalizing cur skip with
  | nil => simp [Spec.lines.go]
  | cons c t ih =>
    rw [Spec.lines.go]
    split
    · simp
    · split
      · exact ih _ _
      · exact ih _ _

/-- the rules of what is left -/
def rulesAt (icase : Bool) (below : Option Bytes) (skip : Bool) (t : Bytes) : List Rule := rulesOfLines icase below (Spec.lines.go t [] skip)

theorem rulesAt_nil (icase : Bool) (below : Option Bytes) (skip : Bool) : rulesAt icase below skip [] = [] := by
  simp [rulesAt, Spec.lines.go, rulesOfLines, readLast, readLine]

theorem rulesAt_newline (icase : Bool) (below : Option Bytes) (skip : Bool) (t : Bytes) :
    rulesAt icase below skip (c!"\n" :: t) = rulesAt icase below true t := by
  unfold rulesAt
  rw [Spec.lines.go, if_pos rfl, rulesOfLines_cons _ _ _ (go_ne_nil _ _ _)]
  simp [readLine]

theorem rulesAt_skip (icase : Bool) (below : Option Bytes) (t : Bytes) :
    rulesAt icase below true t = rulesAt icase below false (t.dropWhile (fun c => c == c!"\n" || c == c!"\r")) := by
  induction t with
  | nil => rw [List.dropWhile_nil, rulesAt_nil, rulesAt_nil]
  | cons c t ih =>
    by_cases h1 : c = c!"\n"
    · rw [List.dropWhile_cons_of_pos (by simp [h1]), ← ih, h1, rulesAt_newline]
    · by_cases h2 : c = c!"\r"
      · rw [List.dropWhile_cons_of_pos (by simp [h2]), ← ih]
        unfold rulesAt
        rw [Spec.lines.go, if_neg h1, if_pos ⟨h2, rfl⟩]
      · rw [List.dropWhile_cons_of_neg (by simp [h1, h2])]
        unfold rulesAt
        rw [Spec.lines.go, if_neg h1, if_neg (by simp [h2]), Spec.lines.go, if_neg h1, if_neg (by simp)]

theorem go_line (L R cur : Bytes) (hL : ∀ c ∈ L, c ≠ 10) : Spec.lines.go (L ++ R) cur false = Spec.lines.go R (cur ++ L) false := by
  induction L generalizing cur with
  | nil => simp
  | cons c L ih =>
    rw [List.cons_append, Spec.lines.go, if_neg (hL c (by simp)), if_neg (by simp), ih _ (fun x hx => hL x (by simp [hx]))]
    simp

theorem rulesAt_line (icase : Bool) (below : Option Bytes) (L R : Bytes) (hL : ∀ c ∈ L, c ≠ 10) :
    rulesAt icase below false (L ++ c!"\n" :: R) = (readLine icase below L).toList ++ rulesAt icase below false (nextLine (c!"\n" :: R)) := by
  have : nextLine (c!"\n" :: R) = R.dropWhile (fun c => c == c!"\n" || c == c!"\r") := by simp [nextLine]
  rw [this, ← rulesAt_skip]
  unfold rulesAt
  rw [go_line _ _ _ hL, Spec.lines.go, if_pos rfl, rulesOfLines_cons _ _ _ (go_ne_nil _ _ _)]
  simp

theorem rulesAt_last (icase : Bool) (below : Option Bytes) (L : Bytes) (hL : ∀ c ∈ L, c ≠ 10) :
    rulesAt icase below false L = (readLast icase below L).toList := by
  unfold rulesAt
  have := go_line L [] [] hL
  rw [List.append_nil, List.nil_append] at this
  rw [this, Spec.lines.go]
  simp [rulesOfLines]

/-! ## Negative rules -/

theorem sameText_iff {icase : Bool} {a b : Bytes} : sameText icase a b = true ↔ Same icase a b := by
  unfold sameText Same
  cases icase
  · have h : Wildmatch.Spec.seen ⟨false, false⟩ = id := by funext x; simp [Wildmatch.Spec.seen]
    rw [h]; simp
  · have h : Wildmatch.Spec.seen ⟨true, false⟩ = Wildmatch.toLower := by funext x; simp [Wildmatch.Spec.seen, toLower_eq]
    rw [h]; simp

theorem same_length {icase : Bool} {a b : Bytes} (h : Same icase a b) : a.length = b.length := by
  have := congrArg List.length h
  simpa using this

/-- the last component of the longer pattern -/
theorem tail_iff {icase : Bool} {s l : Bytes} (h : s.length < l.length) :
    (l.getD (l.length - s.length - 1) 0 = c!"/" ∧ sameText icase (l.drop (l.length - s.length)) s = true) ↔
    ∃ d n, l = d ++ c!"/" :: n ∧ n.length = s.length ∧ Same icase n s := by
  constructor
  · rintro ⟨h1, h2⟩
    refine ⟨l.take (l.length - s.length - 1), l.drop (l.length - s.length), ?_, by simp; omega, sameText_iff.mp h2⟩
    rw [← h1]
    have : l.drop (l.length - s.length - 1) = l.getD (l.length - s.length - 1) 0 :: l.drop (l.length - s.length) := by
      rw [List.drop_eq_getElem_cons (by omega), List.getD_eq_getElem?_getD, List.getElem?_eq_getElem (by omega), Option.getD_some]
      congr 2; omega
    rw [← this, List.take_append_drop]
  · rintro ⟨d, n, rfl, h1, h2⟩
    have e : (d ++ c!"/" :: n).length - s.length = d.length + 1 := by simp; omega
    rw [e, Nat.add_sub_cancel]
    constructor
    · rw [List.getD_eq_getElem?_getD, List.getElem?_append_right (Nat.le_refl _)]; simp
    · rw [show d ++ c!"/" :: n = (d ++ [c!"/"]) ++ n by simp, List.drop_left' (by simp)]
      exact sameText_iff.mpr h2

theorem negatesOne_iff {neg r : Rule} (hn : neg.negative = true) : negatesOne neg r = true ↔ Undoes neg r := by
  unfold negatesOne Undoes
  cases hw : r.wild
  · simp only [not_false_eq_true, if_true, Bool.false_eq_true, if_false]
    unfold doesNegatePattern
    rw [hn]
    cases hrn : r.negative
    · rw [if_neg (by simp)]
      simp only [true_and]
      by_cases h1 : r.pattern.length = neg.pattern.length
      · rw [if_pos h1, sameText_iff]
        constructor
        · intro h; exact .inl ⟨h1, h⟩
        · rintro (h | h | h)
          · exact h.2
          · omega
          · omega
      · rw [if_neg h1]
        by_cases h2 : r.pattern.length < neg.pattern.length
        · simp only [if_pos h2]
          have ht := tail_iff (icase := neg.icase) h2
          by_cases h3 : neg.pattern.getD (neg.pattern.length - r.pattern.length - 1) 0 = c!"/"
          · rw [if_neg (fun k => k h3)]
            by_cases h4 : c!"/" ∈ r.pattern
            · rw [if_pos (by simpa using h4)]
              simp only [Bool.false_eq_true, false_iff]
              rintro (h | h | h)
              · omega
              · exact h.2.1 h4
              · omega
            · rw [if_neg (by simpa using h4)]
              constructor
              · intro h; exact .inr (.inl ⟨h2, h4, ht.mp ⟨h3, h⟩⟩)
              · rintro (h | h | h)
                · omega
                · exact (ht.mpr h.2.2).2
                · omega
          · rw [if_pos h3]
            simp only [Bool.false_eq_true, false_iff]
            rintro (h | h | h)
            · omega
            · exact h3 (ht.mpr h.2.2).1
            · omega
        · simp only [if_neg h2]
          have h2' : neg.pattern.length < r.pattern.length := by omega
          have ht := tail_iff (icase := neg.icase) h2'
          by_cases h3 : r.pattern.getD (r.pattern.length - neg.pattern.length - 1) 0 = c!"/"
          · rw [if_neg (fun k => k h3)]
            by_cases h4 : c!"/" ∈ neg.pattern
            · rw [if_pos (by simpa using h4)]
              simp only [Bool.false_eq_true, false_iff]
              rintro (h | h | h)
              · omega
              · omega
              · exact h.2.1 h4
            · rw [if_neg (by simpa using h4)]
              constructor
              · intro h; exact .inr (.inr ⟨h2', h4, ht.mp ⟨h3, h⟩⟩)
              · rintro (h | h | h)
                · omega
                · omega
                · exact (ht.mpr h.2.2).2
          · rw [if_pos h3]
            simp only [Bool.false_eq_true, false_iff]
            rintro (h | h | h)
            · omega
            · omega
            · exact h3 (ht.mpr h.2.2).1
    · rw [if_pos (by simp)]
      simp
  · simp only [not_true_eq_false, if_false, if_true, decide_eq_true_eq]
    rw [Wildmatch.C32_wildmatch]
    rfl

theorem addRule_eq (rules : List Rule) (r : Rule) :
    (if r.negative ∧ ¬ r.wild ∧ ¬ doesNegateRule rules r then rules else rules ++ [r]) = addRule rules r := by
  unfold addRule
  cases hn : r.negative
  · simp
  · cases hw : r.wild
    · have : doesNegateRule rules r = true ↔ ∃ x ∈ rules, Undoes r x := by
        unfold doesNegateRule
        rw [List.any_eq_true]
        exact exists_congr fun x => and_congr_right fun _ => negatesOne_iff hn
      by_cases h : ∃ x ∈ rules, Undoes r x
      · rw [if_neg (by rw [this.mpr h]; simp), if_neg (fun k => k.2.2 h)]
      · rw [if_pos (by simp only [true_and]; exact ⟨by simp, fun k => h (this.mp k)⟩), if_pos ⟨rfl, rfl, h⟩]
    · simp

theorem readLine_icase {icase : Bool} {below : Option Bytes} {L : Bytes} {r : Rule} (h : readLine icase below L = some r) : r.icase = icase := by
  rw [readLine] at h
  by_cases h1 : L = [] ∨ L.head? = some c!"#"
  · rw [if_pos h1] at h; cases h
  · rw [if_neg h1] at h
    dsimp only at h
    generalize stripBlanks _ = B at h
    by_cases h2 : B = []
    · rw [if_pos h2] at h; cases h
    · rw [if_neg h2] at h
      rw [← Option.some.inj h]

/-! ## The loop -/

theorem plain_suffix {a b : Bytes} (h : Plain (a ++ b)) : Plain b :=
  ⟨fun c hc => h.1 c (by simp [hc]), fun x y e => h.2 (a ++ x) y (by rw [e]; simp)⟩

theorem split_line (t : Bytes) : ∃ L R, t = L ++ R ∧ (∀ c ∈ L, c ≠ 10) ∧ ∀ c ∈ R.head?, c = c!"\n" := by
  refine ⟨t.takeWhile (· != 10), t.dropWhile (· != 10), (List.takeWhile_append_dropWhile ..).symm, ?_, ?_⟩
  · intro c hc
    have := List.all_eq_true.mp (List.all_takeWhile (p := (· != (10 : UInt8))) (l := t)) c hc
    simpa using this
  · intro c hc
    induction t with
    | nil => simp at hc
    | cons d t ih =>
      by_cases hd : d = 10
      · rw [List.dropWhile_cons_of_neg (by simp [hd])] at hc
        simp at hc
        rw [← hc, hd]
      · rw [List.dropWhile_cons_of_pos (by simp [hd])] at hc
        exact ih hc

theorem nextLine_suffix (t : Bytes) : ∃ a, t = a ++ nextLine t := by
  unfold nextLine
  exact ⟨t.takeWhile (· != c!"\n") ++ (t.dropWhile (· != c!"\n")).takeWhile (fun c => c == c!"\n" || c == c!"\r"), by
    rw [List.append_assoc, List.takeWhile_append_dropWhile, List.takeWhile_append_dropWhile]⟩

theorem nextLine_le (t : Bytes) : (nextLine t).length ≤ t.length := by
  obtain ⟨a, h⟩ := nextLine_suffix t
  have := congrArg List.length h
  rw [List.length_append] at this
  omega

theorem parseLoop_plain (icase : Bool) (below : Option Bytes) (n : Nat) : ∀ (scan : Bytes), scan.length ≤ n → Plain scan → ∀ fuel, scan.length < fuel → ∀ rules,
    parseLoop icase below fuel scan rules = some ((rulesAt icase below false scan).foldl addRule rules) := by
  induction n with
  | zero =>
    intro scan hn _ fuel hf rules
    rw [List.length_eq_zero_iff.mp (Nat.le_zero.mp hn)] at hf ⊢
    obtain ⟨f, rfl⟩ : ∃ f, fuel = f + 1 := ⟨fuel - 1, by simp at hf; omega⟩
    rw [parseLoop, if_pos rfl, rulesAt_nil]; rfl
  | succ n ih =>
    intro scan hn hp fuel hf rules
    obtain ⟨f, rfl⟩ : ∃ f, fuel = f + 1 := ⟨fuel - 1, by omega⟩
    rw [parseLoop]
    by_cases hs : scan = []
    · rw [if_pos hs, hs, rulesAt_nil]; rfl
    · rw [if_neg hs]
      obtain ⟨L, R, rfl, hL, hR⟩ := split_line scan
      have hpR : Plain R := plain_suffix hp
      have hLB : ∀ c ∈ L, LineByte c := fun c hc => ⟨hL c hc, (hp.1 c (by simp [hc])).1, (hp.1 c (by simp [hc])).2⟩
      simp only [List.length_append] at hn hf
      -- what comes after the line
      have hlt : R ≠ [] → (nextLine R).length < R.length := by
        intro hR0
        obtain ⟨c, R', rfl⟩ := List.exists_cons_of_ne_nil hR0
        have hc : c = c!"\n" := hR c rfl
        subst hc
        have : nextLine (c!"\n" :: R') = R'.dropWhile (fun c => c == c!"\n" || c == c!"\r") := by simp [nextLine]
        rw [this]
        have := (List.dropWhile_sublist (fun c : UInt8 => c == c!"\n" || c == c!"\r") (l := R')).length_le
        simp; omega
      have hnext : ∀ rules f, (nextLine R).length < f → (R ≠ [] ∨ 0 < L.length) → parseLoop icase below f (nextLine R) rules = some ((rulesAt icase below false (nextLine R)).foldl addRule rules) := by
        intro rules f hf' hor
        have hle := nextLine_le R
        obtain ⟨a, ha⟩ := nextLine_suffix R
        refine ih _ ?_ (by rw [ha] at hpR; exact plain_suffix hpR) _ hf' _
        rcases hor with h | h
        · have := hlt h; omega
        · omega
      by_cases hL0 : L = []
      · subst hL0
        rw [List.nil_append] at *
        obtain ⟨c, R', rfl⟩ := List.exists_cons_of_ne_nil hs
        have hc : c = c!"\n" := hR c rfl
        subst hc
        have : parseOne below (c!"\n" :: R') = .notFound (nextLine (c!"\n" :: R')) := by
          rw [parseOne, if_neg (by simp), if_pos (by simp)]
        rw [this]
        dsimp only
        rw [hnext rules f (by have := hlt (by simp); simp at hf this ⊢; omega) (.inl (by simp))]
        have := rulesAt_line icase below [] R' (by simp)
        rw [List.nil_append] at this
        rw [this]
        simp [readLine]
      · have hLp := List.length_pos_iff.mpr hL0
        have hstep : ∀ r : Rule, ∀ rest : List Rule, ∀ b : Bytes, nextLine b = nextLine R → rulesAt icase below false (L ++ R) = r :: rest → rest = rulesAt icase below false (nextLine R) → r.icase = icase →
            (let r' := { ({ r with icase := false } : Rule) with icase := icase }
             let scan := nextLine b
             if r'.negative = true ∧ ¬ r'.wild = true ∧ ¬ doesNegateRule rules r' = true then parseLoop icase below f scan rules else parseLoop icase below f scan (rules ++ [r'])) =
            some ((rulesAt icase below false (L ++ R)).foldl addRule rules) := by
          intro r rest b hb h1 h2 h3
          have hr : { ({ r with icase := false } : Rule) with icase := icase } = r := by rw [← h3]
          dsimp only
          rw [hb]
          have e : (if r.negative = true ∧ ¬ r.wild = true ∧ ¬ doesNegateRule rules { r with icase := icase } = true then parseLoop icase below f (nextLine R) rules else parseLoop icase below f (nextLine R) (rules ++ [{ r with icase := icase }])) =
              parseLoop icase below f (nextLine R) (addRule rules r) := by
            have hr2 : { r with icase := icase } = r := by rw [← h3]
            rw [hr2, ← addRule_eq]
            split <;> rfl
          rw [e, hnext _ f (by have := nextLine_le R; omega) (.inr hLp), h1, List.foldl_cons, h2]
        by_cases hopt : R = [] ∧ (L = b!"*" ∨ L = b!".")
        · obtain ⟨rfl, ho⟩ := hopt
          have hpo : parseOne below (L ++ []) = .rule ⟨L, none, false, false, false, false, false⟩ L := by
            rw [List.append_nil, parseOne, if_pos ho]
          have hn0 : nextLine L = nextLine [] := by have := nextLine_append (R := []) hL; rwa [List.append_nil] at this
          rw [hpo]
          have hra : rulesAt icase below false (L ++ []) = [⟨L, none, false, false, false, false, icase⟩] := by
            rw [List.append_nil, rulesAt_last _ _ _ hL, readLast, if_pos ho]; rfl
          exact hstep ⟨L, none, false, false, false, false, icase⟩ [] L hn0 hra (by rw [show nextLine [] = [] from rfl, rulesAt_nil]) rfl
        · have hesc : L.getLast? ≠ some c!"\\" ∨ R = [] := by
            by_cases hR0 : R = []
            · exact .inr hR0
            · left
              intro h
              obtain ⟨c, R', rfl⟩ := List.exists_cons_of_ne_nil hR0
              have hc : c = c!"\n" := hR c rfl
              subst hc
              obtain ⟨ys, hys⟩ := List.getLast?_eq_some_iff.mp h
              exact hp.2 ys R' (by rw [hys]; simp)
          have hrules : rulesAt icase below false (L ++ R) = (readLine icase below L).toList ++ rulesAt icase below false (nextLine R) := by
            cases R with
            | nil =>
              rw [List.append_nil, rulesAt_last _ _ _ hL, readLast, if_neg (fun h => hopt ⟨rfl, h⟩), show nextLine [] = [] from rfl, rulesAt_nil]; simp
            | cons c R' =>
              have hc : c = c!"\n" := hR c rfl
              subst hc
              exact rulesAt_line icase below L R' hL
          rcases parse_line icase below L R hLB hR hesc hL0 hopt with ⟨r, h1, h2⟩ | ⟨h1, b, h2, h3⟩
          · rw [h2]
            have hic := readLine_icase h1
            exact hstep r (rulesAt icase below false (nextLine R)) R rfl (by rw [hrules, h1]; rfl) rfl hic
          · rw [h2, hrules, h1]
            dsimp only
            rcases h3 with rfl | rfl
            · rw [ih b (by omega) hpR f (by omega)]
              cases b with
              | nil => rfl
              | cons c R' =>
                have hc : c = c!"\n" := hR c rfl
                subst hc
                have := rulesAt_line icase below [] R' (by simp)
                rw [List.nil_append] at this
                rw [this]
                simp [readLine]
            · rw [hnext _ f (by have := nextLine_le R; omega) (.inr hLp)]; simp

end Verif.Ignore
