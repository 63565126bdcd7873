import Verif.Ignore.Lemmas2
/-! # Rounds of the parser; rules that apply -/
namespace Verif.Ignore
open Spec (Rule Env readLine readLast Same Globs Undoes addRule Plain readRules Applies Decides Silent lastName dirName fileRules globalRules)
open Wildmatch (wildmatch isSpace)

theorem parseFile_plain (icase : Bool) (below : Option Bytes) (rules : List Rule) {t : Bytes} (h : Plain t) :
    parseFile icase below rules t = some (readRules icase below rules t) := by
  rw [parseFile, parseLoop_plain icase below t.length t (Nat.le_refl _) h _ (by omega)]
  congr 1
  unfold readRules
  cases t with
  | nil => rw [rulesAt_nil]; rfl
  | cons c t => rfl

/-! ## Rounds -/

theorem scan_consume (allow : Bool) (t : Bytes) (s : Scan) : (scanLoop allow t s).2.length < t.length ∨ scanLoop allow t s = (s, t) := by
  induction t generalizing s with
  | nil => right; rfl
  | cons c t ih =>
    have h : ∀ s', (scanLoop allow t s').2.length < (c :: t).length := by
      intro s'
      rcases ih s' with h | h
      · simp; omega
      · rw [h]; simp
    rw [scanLoop]
    split
    · exact .inl (h _)
    · split
      · split
        · exact .inr rfl
        · exact .inl (h _)
      · split
        · exact .inl (h _)
        · split
          · exact .inl (h _)
          · exact .inl (h _)

theorem nextLine_lt {t : Bytes} (h : t ≠ []) : (nextLine t).length < t.length := by
  obtain ⟨L, R, rfl, hL, hR⟩ := split_line t
  rw [nextLine_append hL]
  cases R with
  | nil =>
    have : L ≠ [] := by simpa using h
    have := List.length_pos_iff.mpr this
    simpa [nextLine] using this
  | cons c R =>
    have hc : c = c!"\n" := hR c rfl
    subst hc
    have : nextLine (c!"\n" :: R) = R.dropWhile (fun c => c == c!"\n" || c == c!"\r") := by simp [nextLine]
    rw [this]
    have := (List.dropWhile_sublist (fun c : UInt8 => c == c!"\n" || c == c!"\r") (l := R)).length_le
    simp; omega

theorem finishParse_cases (below : Option Bytes) (neg : Bool) (s : Scan) (rest : Bytes) :
    finishParse below neg s rest = .notFound rest ∨ (s.taken ≠ [] ∧ ∃ r, finishParse below neg s rest = .rule r rest) := by
  unfold finishParse
  by_cases h1 : s.taken = []
  · left; rw [if_pos h1]
  · rw [if_neg h1]
    dsimp only
    generalize (if s.taken.getLast? = some c!"\r" then s.taken.dropLast else s.taken) = p1
    by_cases h2 : p1 = []
    · left; rw [if_pos h2]
    · rw [if_neg h2]
      by_cases h3 : trimLoop p1 p1.length = []
      · left; rw [if_pos h3]
      · right; rw [if_neg h3]; exact ⟨h1, _, rfl⟩

/-- a round consumes something, or changes nothing at all -/
theorem parseOne_progress (below : Option Bytes) {scan : Bytes} (h : scan ≠ []) :
    parseOne below scan = .notFound scan ∨ (∃ b, parseOne below scan = .notFound b ∧ b.length < scan.length) ∨
    ∃ r b, parseOne below scan = .rule r b ∧ (nextLine b).length < scan.length := by
  rw [parseOne]
  by_cases h1 : scan = b!"*" ∨ scan = b!"."
  · rw [if_pos h1]
    exact .inr (.inr ⟨_, _, rfl, nextLine_lt h⟩)
  · rw [if_neg h1]
    split
    · exact .inr (.inl ⟨_, rfl, nextLine_lt h⟩)
    · dsimp only
      generalize hn : decide (scan.head? = some c!"!") = neg
      generalize hq : (if neg = true then scan.tail else scan) = q
      have hql : q.length ≤ scan.length ∧ (q.length < scan.length ∨ q = scan) := by
        rw [← hq]
        cases neg
        · simp
        · have := List.length_pos_iff.mpr h
          simp; omega
      rcases finishParse_cases below neg (scanLoop true q ⟨[], false, false, false, 0⟩).1 (scanLoop true q ⟨[], false, false, false, 0⟩).2 with hf | ⟨ht, r, hf⟩
      · rw [hf]
        rcases scan_consume true q ⟨[], false, false, false, 0⟩ with hc | hc
        · exact .inr (.inl ⟨_, rfl, by omega⟩)
        · rw [hc]
          dsimp only
          rcases hql.2 with h2 | rfl
          · exact .inr (.inl ⟨_, rfl, h2⟩)
          · exact .inl rfl
      · rw [hf]
        rcases scan_consume true q ⟨[], false, false, false, 0⟩ with hc | hc
        · refine .inr (.inr ⟨_, _, rfl, ?_⟩)
          have := nextLine_le (scanLoop true q ⟨[], false, false, false, 0⟩).2
          omega
        · rw [hc] at ht; exact absurd rfl ht

theorem parse_stuck (icase : Bool) (below : Option Bytes) {scan : Bytes} (h : scan ≠ []) (h2 : parseOne below scan = .notFound scan) (rules : List Rule) (fuel : Nat) :
    parseLoop icase below fuel scan rules = none := by
  induction fuel with
  | zero => rfl
  | succ f ih => rw [parseLoop, if_neg h, h2]; exact ih

/-- more rounds than bytes make no difference -/
theorem parse_hangs (icase : Bool) (below : Option Bytes) (n : Nat) : ∀ (scan : Bytes), scan.length ≤ n → ∀ (rules : List Rule) (fuel : Nat), scan.length < fuel →
    parseLoop icase below fuel scan rules = none → ∀ fuel', parseLoop icase below fuel' scan rules = none := by
  induction n with
  | zero =>
    intro scan hn rules fuel hf h
    rw [List.length_eq_zero_iff.mp (Nat.le_zero.mp hn)] at hf h
    obtain ⟨f, rfl⟩ : ∃ f, fuel = f + 1 := ⟨fuel - 1, by simp at hf; omega⟩
    rw [parseLoop, if_pos rfl] at h
    cases h
  | succ n ih =>
    intro scan hn rules fuel hf h fuel'
    obtain ⟨f, rfl⟩ : ∃ f, fuel = f + 1 := ⟨fuel - 1, by omega⟩
    cases fuel' with
    | zero => rfl
    | succ f' =>
      rw [parseLoop] at h ⊢
      by_cases hs : scan = []
      · rw [if_pos hs] at h; cases h
      · rw [if_neg hs] at h ⊢
        rcases parseOne_progress below hs with h1 | ⟨b, h1, h2⟩ | ⟨r, b, h1, h2⟩
        · rw [h1]
          exact parse_stuck icase below hs h1 rules f'
        · rw [h1] at h ⊢
          exact ih b (by omega) rules f (by omega) h f'
        · rw [h1] at h ⊢
          dsimp only at h ⊢
          split at h
          · rename_i hc
            rw [if_pos hc]
            exact ih _ (by omega) _ f (by omega) h f'
          · rename_i hc
            rw [if_neg hc]
            exact ih _ (by omega) _ f (by omega) h f'

/-! ## Applying -/

theorem hasPrefix_iff {icase : Bool} {str pre : Bytes} : hasPrefix icase str pre = true ↔ ∃ d rel, str = d ++ rel ∧ Same icase d pre := by
  unfold hasPrefix
  simp only [decide_eq_true_eq]
  constructor
  · rintro ⟨h1, h2⟩
    exact ⟨_, _, (List.take_append_drop pre.length str).symm, sameText_iff.mp h2⟩
  · rintro ⟨d, rel, rfl, h⟩
    have hl := same_length h
    refine ⟨by simp; omega, sameText_iff.mpr ?_⟩
    rw [← hl, List.take_left' rfl]
    exact h

/-- the path and the offset of its last component belong together -/
def Wf (p : APath) : Prop := p.base = afterSlash p.path

theorem dirName_length (p : Bytes) : (dirName p).length = afterSlash p := by simp [dirName, afterSlash]

theorem dirName_append (p : Bytes) : dirName p ++ lastName p = p := by
  unfold dirName lastName
  rw [← List.reverse_append, List.takeWhile_append_dropWhile, List.reverse_reverse]

theorem drop_base (p : Bytes) : p.drop (afterSlash p) = lastName p := by
  have h : p.drop (dirName p).length = lastName p := by
    conv => lhs; rw [← dirName_append p]
    rw [List.drop_left' (by rw [dirName_append])]
  rwa [dirName_length] at h

theorem same_nil {icase : Bool} {d : Bytes} : Same icase d [] ↔ d = [] := by
  constructor
  · intro h
    exact List.length_eq_zero_iff.mp (same_length h)
  · rintro rfl; rfl

theorem applies_iff {p : APath} (hp : Wf p) (m : Rule) : applies p m = true ↔ Applies m p.path p.isDir := by
  unfold applies Applies
  by_cases hd : m.directory = true ∧ p.isDir = false
  · obtain ⟨h1, h2⟩ := hd
    simp [h1, h2]
  · have hd1 : (m.directory = true → p.isDir = true) := by
      intro h
      cases hi : p.isDir
      · exact absurd ⟨h, hi⟩ hd
      · rfl
    have hd2 : (m.directory && !p.isDir) = false := by
      cases hm : m.directory
      · rfl
      · simp [hd1 hm]
    rw [hd2]
    simp only [Bool.not_false, Bool.true_and]
    rw [and_iff_right hd1]
    unfold fnmatch
    dsimp only
    rw [hp, drop_base]
    have hd3 : ¬ (m.directory = true ∧ ¬ p.isDir = true) := fun h => h.2 (hd1 h.1)
    rw [if_neg hd3]
    cases hb : m.below with
    | none =>
      simp only [Option.getD_none, List.length_nil, List.drop_zero, Bool.false_eq_true, if_false, decide_eq_true_eq]
      rw [Wildmatch.C32_wildmatch]
      constructor
      · intro h
        refine ⟨[], p.path, rfl, rfl, ?_⟩
        exact h
      · rintro ⟨d, rel, h1, h2, h3⟩
        rw [same_nil.mp h2, List.nil_append] at h1
        rw [← h1] at h3
        exact h3
    | some d =>
      simp only [Option.getD_some]
      by_cases hpre : hasPrefix m.icase p.path d = true
      · rw [if_neg (by rw [hpre]; simp), decide_eq_true_eq, Wildmatch.C32_wildmatch]
        obtain ⟨d', rel, h1, h2⟩ := hasPrefix_iff.mp hpre
        have hl := same_length h2
        have hrel : p.path.drop d.length = rel := by rw [h1, ← hl, List.drop_left' rfl]
        rw [hrel]
        constructor
        · intro h; exact ⟨d', rel, h1, h2, h⟩
        · rintro ⟨d'', rel', g1, g2, g3⟩
          have hl' := same_length g2
          have : rel' = rel := by rw [← hrel, g1, ← hl', List.drop_left' rfl]
          rw [this] at g3
          exact g3
      · have hpre' : hasPrefix m.icase p.path d = false := by simpa using hpre
        rw [if_pos (by rw [hpre']; rfl)]
        simp only [Bool.false_eq_true, false_iff]
        rintro ⟨d', rel, h1, h2, -⟩
        exact hpre (hasPrefix_iff.mpr ⟨d', rel, h1, h2⟩)

/-! ## Looking up -/

theorem lookupInRules_some {rules : List Rule} {p : APath} (hp : Wf p) {b : Bool} (h : lookupInRules rules p = some b) :
    ∃ r pre post, rules = pre ++ r :: post ∧ Applies r p.path p.isDir ∧ (∀ x ∈ post, ¬ Applies x p.path p.isDir) ∧ b = !r.negative := by
  unfold lookupInRules at h
  obtain ⟨r, hr, rfl⟩ := Option.map_eq_some_iff.mp h
  obtain ⟨h1, as, bs, h2, h3⟩ := List.find?_eq_some_iff_append.mp hr
  refine ⟨r, bs.reverse, as.reverse, ?_, (applies_iff hp r).mp h1, ?_, rfl⟩
  · have := congrArg List.reverse h2
    simpa using this
  · intro x hx hax
    have := h3 x (by simpa using hx)
    rw [(applies_iff hp x).mpr hax] at this
    cases this

theorem lookupInRules_none {rules : List Rule} {p : APath} (hp : Wf p) : lookupInRules rules p = none ↔ ∀ x ∈ rules, ¬ Applies x p.path p.isDir := by
  unfold lookupInRules
  rw [Option.map_eq_none_iff, List.find?_eq_none]
  constructor
  · intro h x hx hax
    exact h x (by simpa using hx) ((applies_iff hp x).mpr hax)
  · intro h x hx hax
    exact h x (by simpa using hx) ((applies_iff hp x).mp hax)

theorem lookup_some {files : List (List Rule)} {p : APath} (hp : Wf p) {b : Bool} (h : lookupInFiles files p = some b) :
    ∃ r, Decides files p.path p.isDir r ∧ b = !r.negative := by
  obtain ⟨before, src, after, h1, h2, h3⟩ := List.findSome?_eq_some_iff.mp h
  obtain ⟨r, pre, post, g1, g2, g3, g4⟩ := lookupInRules_some hp h2
  exact ⟨r, ⟨before, src, after, pre, post, h1, fun s hs => (lookupInRules_none hp).mp (h3 s hs), g1, g2, g3⟩, g4⟩

theorem lookup_none {files : List (List Rule)} {p : APath} (hp : Wf p) : lookupInFiles files p = none ↔ Silent files p.path p.isDir := by
  unfold lookupInFiles
  rw [List.findSome?_eq_none_iff]
  exact forall_congr' fun s => forall_congr' fun _ => lookupInRules_none hp

theorem decides_lookup {files : List (List Rule)} {p : APath} (hp : Wf p) {r : Rule} (h : Decides files p.path p.isDir r) :
    lookupInFiles files p = some (!r.negative) := by
  obtain ⟨before, src, after, pre, post, rfl, h2, rfl, h4, h5⟩ := h
  unfold lookupInFiles
  rw [List.findSome?_append]
  have : List.findSome? (fun rules => lookupInRules rules p) before = none :=
    List.findSome?_eq_none_iff.mpr fun s hs => (lookupInRules_none hp).mpr (h2 s hs)
  rw [this, Option.none_or, List.findSome?_cons]
  have : lookupInRules (pre ++ r :: post) p = some (!r.negative) := by
    unfold lookupInRules
    rw [List.reverse_append, List.reverse_cons, List.append_assoc, List.find?_append]
    have : post.reverse.find? (applies p) = none := List.find?_eq_none.mpr fun x hx hax => h5 x (by simpa using hx) ((applies_iff hp x).mp hax)
    rw [this, Option.none_or, List.singleton_append, List.find?_cons_of_pos ((applies_iff hp r).mpr h4)]
    rfl
  rw [this]

end Verif.Ignore
