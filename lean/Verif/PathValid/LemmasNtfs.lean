import Verif.PathValid.Lemmas
/-! # Lemmas on the checks for NTFS -/
namespace Verif.PathValid
open Spec

theorem drop_append_len {a u : Bytes} {n : Nat} (h : a.length = n) : (a ++ u).drop n = u := by subst h; simp

theorem not_slash {a r : Bytes} (h : SameName a r) (hr : c!"/" ∉ r) : c!"/" ∉ a := fun ha => hr (h.mem low_slash ha)

theorem hit_iff {comp : Bytes} {o : Option Bytes} (r : Bytes) (h0 : 0 ∉ r) (h1 : c!"/" ∉ r) :
    (decide (comp.length ≥ r.length) && caseEq (comp ++ tail o) r) = true ↔ ∃ a u, comp = a ++ u ∧ SameName a r := by
  rw [Bool.and_eq_true, caseEq_iff _ _ h0, decide_eq_true_eq]
  constructor
  · rintro ⟨_, a, t, h2, h3⟩
    obtain ⟨u, h4, _⟩ := inside h2 (not_slash h3 h1)
    exact ⟨a, u, h4, h3⟩
  · rintro ⟨a, u, rfl, h3⟩
    refine ⟨by rw [← h3.length]; simp, a, u ++ tail o, by simp, h3⟩

theorem validNtfs_iff {comp : Bytes} {o : Option Bytes} : validNtfs (comp ++ tail o) comp.length = false ↔ NtfsDotGit comp := by
  have after : ∀ (a u r : Bytes), comp = a ++ u → SameName a r →
      ((if peek (comp ++ tail o) r.length = c!"\\" ∨ peek (comp ++ tail o) r.length = c!":" then false
        else !((((comp ++ tail o).take comp.length).drop r.length).all fun c => c = c!" " ∨ c = c!".")) = false ↔
        (u.head? = some c!"\\" ∨ u.head? = some c!":" ∨ Dropped u)) := by
    intro a u r hc hs
    have hl := hs.length
    subst hc
    rw [List.take_left, drop_append_len hl, ← hl, List.append_assoc, peek_append_len]
    have hp : ∀ x : UInt8, x ≠ 0 → x ≠ c!"/" → (peek (u ++ tail o) 0 = x ↔ u.head? = some x) := by
      intro x h1 h2
      cases u with
      | nil =>
        rw [List.nil_append, peek_tail]
        simp only [List.head?_nil, reduceCtorEq, iff_false]
        split
        · exact fun h => h1 h.symm
        · exact fun h => h2 h.symm
      | cons y ys => simp [peek]
    simp only [hp c!"\\" (by decide) (by decide), hp c!":" (by decide) (by decide)]
    by_cases h : u.head? = some c!"\\" ∨ u.head? = some c!":"
    · rw [if_pos h]
      simp only [true_iff]
      rcases h with h | h
      · exact .inl h
      · exact .inr (.inl h)
    · rw [if_neg h]
      have : (!(u.all fun c => decide (c = c!" " ∨ c = c!"."))) = false ↔ Dropped u := by
        simp [Dropped]
      rw [this]
      constructor
      · exact fun h => .inr (.inr h)
      · rintro (h2 | h2 | h2)
        · exact absurd (.inl h2) h
        · exact absurd (.inr h2) h
        · exact h2
  have g1 := hit_iff (comp := comp) (o := o) b!".git" (by decide) (by decide)
  have g2 := hit_iff (comp := comp) (o := o) b!"GIT~1" (by decide) (by decide)
  have same2 : ∀ a, SameName a b!"GIT~1" ↔ SameName a b!"git~1" := by
    intro a
    unfold SameName
    rw [show (b!"GIT~1").map low = (b!"git~1").map low from by decide +kernel]
  have excl : ∀ a u b v : Bytes, a ++ u = b ++ v → SameName a b!".git" → SameName b b!"git~1" → False := by
    intro a u b v h ha hb
    cases a with
    | nil => simp [SameName] at ha
    | cons x a =>
      cases b with
      | nil => simp [SameName] at hb
      | cons y b =>
        simp only [List.cons_append, List.cons.injEq] at h
        simp only [SameName, List.map_cons, List.cons.injEq] at ha hb
        rw [h.1, hb.1] at ha
        exact absurd ha.1 (by decide +kernel)
  unfold validNtfs reserved
  rw [List.find?_cons]
  by_cases p1 : (decide (comp.length ≥ (b!".git").length) && caseEq (comp ++ tail o) b!".git") = true
  · simp only [p1]
    obtain ⟨a, u, hc, hs⟩ := g1.mp p1
    rw [after a u b!".git" hc hs]
    constructor
    · exact fun h => ⟨a, u, hc, .inl hs, h⟩
    · rintro ⟨b, v, hb, hs2 | hs2, h⟩
      · have : u = v := (List.append_inj (hc.symm.trans hb) (by rw [hs.length, hs2.length])).2
        rwa [this]
      · exact absurd (excl a u b v (hc.symm.trans hb) hs hs2) id
  · have p1' : (decide (comp.length ≥ (b!".git").length) && caseEq (comp ++ tail o) b!".git") = false := by simpa using p1
    simp only [p1']
    rw [List.find?_cons]
    by_cases p2 : (decide (comp.length ≥ (b!"GIT~1").length) && caseEq (comp ++ tail o) b!"GIT~1") = true
    · simp only [p2]
      obtain ⟨a, u, hc, hs⟩ := g2.mp p2
      rw [after a u b!"GIT~1" hc hs]
      constructor
      · exact fun h => ⟨a, u, hc, .inr ((same2 a).mp hs), h⟩
      · rintro ⟨b, v, hb, hs2 | hs2, h⟩
        · exact absurd (excl b v a u (hb.symm.trans hc) hs2 ((same2 a).mp hs)) id
        · have : u = v := (List.append_inj (hc.symm.trans hb) (by rw [hs.length, hs2.length]; rfl)).2
          rwa [this]
    · have p2' : (decide (comp.length ≥ (b!"GIT~1").length) && caseEq (comp ++ tail o) b!"GIT~1") = false := by simpa using p2
      simp only [p2']
      constructor
      · intro h; simp at h
      · rintro ⟨b, v, hb, hs2 | hs2, h⟩
        · exact absurd (g1.mpr ⟨b, v, hb, hs2⟩) p1
        · exact absurd (g2.mpr ⟨b, v, hb, (same2 b).mpr hs2⟩) p2

/-! ### the end of a file's name -/

theorem ntfsEnd_iff (s : Bytes) : ntfsEnd s = true ↔ Dropped s ∨ NtfsEndsMid s := by
  induction s with
  | nil => simp [ntfsEnd, Dropped]
  | cons c cs ih =>
    unfold ntfsEnd
    by_cases h1 : c = c!":"
    · rw [if_pos h1]
      simp only [true_iff]
      exact .inr ⟨[], cs, by simp [Dropped], by simp [h1]⟩
    · rw [if_neg h1]
      by_cases h2 : c ≠ c!" " ∧ c ≠ c!"."
      · rw [if_pos h2]
        simp only [Bool.false_eq_true, false_iff]
        rintro (h | ⟨d, t, hd, h⟩)
        · rcases h c (by simp) with h | h
          · exact h2.1 h
          · exact h2.2 h
        · cases d with
          | nil => simp at h; exact h1 h.1
          | cons x d =>
            simp only [List.cons_append, List.cons.injEq] at h
            rcases hd x (by simp) with h3 | h3
            · exact h2.1 (h.1.trans h3)
            · exact h2.2 (h.1.trans h3)
      · rw [if_neg h2, ih]
        have hc : c = c!" " ∨ c = c!"." := by
          by_cases a : c = c!" "
          · exact .inl a
          · exact .inr (by by_cases b : c = c!"."; exact b; exact absurd ⟨a, b⟩ h2)
        constructor
        · rintro (h | ⟨d, t, hd, h⟩)
          · left
            intro x hx
            rcases List.mem_cons.mp hx with rfl | hx
            · exact hc
            · exact h x hx
          · right
            refine ⟨c :: d, t, ?_, by simp [h]⟩
            intro x hx
            rcases List.mem_cons.mp hx with rfl | hx
            · exact hc
            · exact hd x hx
        · rintro (h | ⟨d, t, hd, h⟩)
          · exact .inl fun x hx => h x (List.mem_cons_of_mem _ hx)
          · right
            cases d with
            | nil => simp at h; exact absurd h.1 h1
            | cons y d =>
              simp only [List.cons_append, List.cons.injEq] at h
              exact ⟨d, t, fun x hx => hd x (List.mem_cons_of_mem _ hx), h.2⟩

/-- the end check for a component and what follows it -/
theorem ntfsEnd_tail (u : Bytes) (o : Option Bytes) : ntfsEnd (u ++ tail o) = true ↔ NtfsEndsMid u ∨ (o = none ∧ Dropped u) := by
  rw [ntfsEnd_iff]
  cases o with
  | none => simp [tail, or_comm]
  | some r =>
    constructor
    · rintro (h | ⟨d, t, hd, h⟩)
      · have := h c!"/" (by simp [tail])
        exact absurd this (by decide)
      · left
        have hd' : c!"/" ∉ d ++ [c!":"] := by
          intro hm
          rcases List.mem_append.mp hm with hm | hm
          · exact absurd (hd _ hm) (by decide)
          · simp at hm
        obtain ⟨v, hv, _⟩ := inside (a := d ++ [c!":"]) (t := t) (by simpa using h) hd'
        exact ⟨d, v, hd, by simpa using hv⟩
    · rintro (⟨d, t, hd, h⟩ | ⟨h, _⟩)
      · exact .inr ⟨d, t ++ tail (some r), hd, by simp [h]⟩
      · simp at h

/-! ### the fallback names -/

theorem peek_drop (s : Bytes) (i j : Nat) : peek (s.drop i) j = peek s (i + j) := by
  simp [peek, List.getD_eq_getElem?_getD]

theorem not_digit_iff (c : UInt8) : (c < c!"0" ∨ c > c!"9") ↔ ¬ Digit c := by revert c; decide +kernel
theorem digit_ne_zero (c : UInt8) (h : Digit c) : c ≠ 0 := by revert h; revert c; decide +kernel
theorem digit19 (c : UInt8) : ¬ (c < c!"1" ∨ c > c!"9") ↔ Digit c ∧ c ≠ c!"0" := by revert c; decide +kernel

theorem drop_cases (s : Bytes) (i : Nat) : (s.drop i = [] ∧ peek s i = 0) ∨ (s.drop i = peek s i :: s.drop (i + 1)) := by
  rcases Nat.lt_or_ge i s.length with h | h
  · right
    rw [List.drop_eq_getElem_cons h]
    congr
    simp [peek, List.getD_eq_getElem?_getD, h]
  · left
    exact ⟨List.drop_eq_nil_of_le h, by simp [peek, List.getD_eq_getElem?_getD, h]⟩

theorem fallback_true (p s : Bytes) (n i : Nat) :
    fallback p s n i true = true ↔ ∃ ds t, s.drop i = ds ++ t ∧ ds.length = n ∧ ∀ x ∈ ds, Digit x := by
  induction n generalizing i with
  | zero =>
    simp only [fallback, true_iff]
    exact ⟨[], s.drop i, rfl, rfl, by simp⟩
  | succ n ih =>
    unfold fallback
    dsimp only
    rcases drop_cases s i with ⟨h1, h2⟩ | h1
    · rw [if_pos h2]
      simp only [Bool.false_eq_true, false_iff]
      rintro ⟨ds, t, h3, h4, _⟩
      rw [h1] at h3
      have := List.append_eq_nil_iff.mp h3.symm
      simp [this.1] at h4
    · by_cases h2 : peek s i = 0
      · rw [if_pos h2]
        simp only [Bool.false_eq_true, false_iff]
        rintro ⟨ds, t, h3, h4, h5⟩
        cases ds with
        | nil => simp at h4
        | cons x ds =>
          rw [h1, List.cons_append, List.cons.injEq] at h3
          exact digit_ne_zero x (h5 x (by simp)) (h3.1.symm.trans h2)
      · rw [if_neg h2, if_pos rfl]
        simp only [not_digit_iff]
        by_cases h3 : Digit (peek s i)
        · rw [if_neg (by simpa using h3), ih]
          constructor
          · rintro ⟨ds, t, h4, h5, h6⟩
            refine ⟨peek s i :: ds, t, by rw [h1, h4]; rfl, by simp [h5], ?_⟩
            intro x hx
            rcases List.mem_cons.mp hx with rfl | hx
            · exact h3
            · exact h6 x hx
          · rintro ⟨ds, t, h4, h5, h6⟩
            cases ds with
            | nil => simp at h5
            | cons x ds =>
              rw [h1, List.cons_append, List.cons.injEq] at h4
              exact ⟨ds, t, h4.2, by simpa using h5, fun x hx => h6 x (List.mem_cons_of_mem _ hx)⟩
        · rw [if_pos h3]
          simp only [Bool.false_eq_true, false_iff]
          rintro ⟨ds, t, h4, h5, h6⟩
          cases ds with
          | nil => simp at h5
          | cons x ds =>
            rw [h1, List.cons_append, List.cons.injEq] at h4
            exact h3 (h4.1 ▸ h6 x (by simp))

theorem low_tilde (c : UInt8) : low c = c!"~" ↔ c = c!"~" := by revert c; decide +kernel
theorem low_ascii (c : UInt8) : c > 127 ↔ low c > 127 := by revert c; decide +kernel

theorem fallback_false (p s : Bytes) (hlen : p.length = 6) (hp : ∀ c ∈ p, low c = c ∧ c ≤ 127 ∧ c ≠ 0 ∧ c ≠ c!"~") (n i : Nat) (hi : i ≤ 6) (hn : n + i = 8) :
    fallback p s n i false = true ↔ ∃ a d ds t, s.drop i = a ++ c!"~" :: d :: (ds ++ t) ∧ a.length + 2 + ds.length = n ∧ i + a.length ≤ 6 ∧
      SameName a ((p.drop i).take a.length) ∧ Digit d ∧ d ≠ c!"0" ∧ ∀ x ∈ ds, Digit x := by
  induction n generalizing i with
  | zero => omega
  | succ n ih =>
    have nomatch0 : peek s i = 0 → ¬ ∃ a d ds t, s.drop i = a ++ c!"~" :: d :: (ds ++ t) ∧ a.length + 2 + ds.length = n + 1 ∧ i + a.length ≤ 6 ∧
      SameName a ((p.drop i).take a.length) ∧ Digit d ∧ d ≠ c!"0" ∧ ∀ x ∈ ds, Digit x := by
      rintro h0 ⟨a, d, ds, t, h1, _, _, h2, _⟩
      rcases drop_cases s i with ⟨h3, _⟩ | h3
      · rw [h3] at h1
        simp at h1
      · rw [h3, h0] at h1
        cases a with
        | nil => simp at h1
        | cons x a =>
          simp only [List.cons_append, List.cons.injEq] at h1
          have : (0 : UInt8) ∈ (p.drop i).take (a.length + 1) := Spec.SameName.mem low_zero (by simpa using h2) (by simp [← h1.1])
          exact (hp 0 (List.mem_of_mem_drop (List.mem_of_mem_take this))).2.2.1 rfl
    unfold fallback
    dsimp only
    by_cases h0 : peek s i = 0
    · rw [if_pos h0]
      simp only [Bool.false_eq_true, false_iff]
      exact nomatch0 h0
    rw [if_neg h0]
    have hd : s.drop i = peek s i :: s.drop (i + 1) := by
      rcases drop_cases s i with ⟨_, h⟩ | h
      · exact absurd h h0
      · exact h
    rw [if_neg (c := false = true) (by simp)]
    by_cases ht : peek s i = c!"~"
    · rw [if_pos ht]
      have ha : ∀ a d ds t, s.drop i = a ++ c!"~" :: d :: (ds ++ t) → SameName a ((p.drop i).take a.length) → a = [] := by
        intro a d ds t h1 h2
        cases a with
        | nil => rfl
        | cons x a =>
          rw [hd, ht] at h1
          simp only [List.cons_append, List.cons.injEq] at h1
          have : c!"~" ∈ (p.drop i).take (a.length + 1) := Spec.SameName.mem low_tilde (by simpa using h2) (by simp [← h1.1])
          exact absurd rfl (hp _ (List.mem_of_mem_drop (List.mem_of_mem_take this))).2.2.2
      by_cases hdg : peek s (i + 1) < c!"1" ∨ peek s (i + 1) > c!"9"
      · rw [if_pos hdg]
        simp only [Bool.false_eq_true, false_iff]
        rintro ⟨a, d, ds, t, h1, _, _, h2, h3, h4, _⟩
        have := ha a d ds t h1 h2
        subst this
        rw [hd, List.nil_append, List.cons.injEq] at h1
        have : peek s (i + 1) = d := by
          have := peek_drop s (i + 1) 0
          rw [h1.2] at this
          exact this.symm
        rw [this] at hdg
        exact (digit19 d).mpr ⟨h3, h4⟩ hdg
      · rw [if_neg hdg, fallback_true]
        have hdg' := (digit19 _).mp hdg
        constructor
        · rintro ⟨ds, t, h1, h2, h3⟩
          cases ds with
          | nil => simp at h2; omega
          | cons d ds =>
            have : peek s (i + 1) = d := by
              have := peek_drop s (i + 1) 0
              rw [h1] at this
              exact this.symm
            refine ⟨[], d, ds, t, by rw [hd, ht, h1]; rfl, ?_, by simpa using hi, by simp [SameName], this ▸ hdg'.1, this ▸ hdg'.2, fun x hx => h3 x (List.mem_cons_of_mem _ hx)⟩
            simp at h2 ⊢
            omega
        · rintro ⟨a, d, ds, t, h1, h2, _, h4, h5, _, h6⟩
          have := ha a d ds t h1 h4
          subst this
          rw [hd, List.nil_append, List.cons.injEq] at h1
          refine ⟨d :: ds, t, by simpa using h1.2, by simp at h2 ⊢; omega, ?_⟩
          intro x hx
          rcases List.mem_cons.mp hx with rfl | hx
          · exact h5
          · exact h6 x hx
    · rw [if_neg ht]
      have ha : ∀ a d ds t, s.drop i = a ++ c!"~" :: d :: (ds ++ t) → ∃ a', a = peek s i :: a' ∧ s.drop (i + 1) = a' ++ c!"~" :: d :: (ds ++ t) := by
        intro a d ds t h1
        cases a with
        | nil => rw [hd, List.nil_append, List.cons.injEq] at h1; exact absurd h1.1 ht
        | cons x a =>
          rw [hd, List.cons_append, List.cons.injEq] at h1
          exact ⟨a, by rw [h1.1], h1.2⟩
      by_cases h6 : i ≥ 6
      · rw [if_pos h6]
        simp only [Bool.false_eq_true, false_iff]
        rintro ⟨a, d, ds, t, h1, _, h3, _⟩
        obtain ⟨a', rfl, _⟩ := ha a d ds t h1
        simp at h3
        omega
      rw [if_neg h6]
      have hpi : p.drop i = peek p i :: p.drop (i + 1) := by
        rcases drop_cases p i with ⟨h, _⟩ | h
        · have := congrArg List.length h
          rw [List.length_drop] at this
          simp at this
          omega
        · exact h
      have hpm : peek p i ∈ p := List.mem_of_mem_drop (hpi ▸ List.mem_cons_self)
      by_cases h7 : low (peek s i) = peek p i
      · have h8 : ¬ peek s i > 127 := by
          rw [low_ascii, h7]
          have := (hp _ hpm).2.1
          exact UInt8.not_lt.mpr this
        rw [if_neg h8, lower_eq, if_neg (by simpa using h7), ih (i + 1) (by omega) (by omega)]
        constructor
        · rintro ⟨a, d, ds, t, g1, g2, g3, g4, g5⟩
          refine ⟨peek s i :: a, d, ds, t, by rw [hd, g1]; rfl, by simp; omega, by simp; omega, ?_, g5⟩
          rw [hpi, List.length_cons, List.take_succ_cons]
          simp only [SameName, List.map_cons, h7, (hp _ hpm).1]
          rw [show a.map low = _ from g4]
        · rintro ⟨a, d, ds, t, g1, g2, g3, g4, g5⟩
          obtain ⟨a', rfl, g6⟩ := ha a d ds t g1
          refine ⟨a', d, ds, t, g6, by simp at g2; omega, by simp at g3; omega, ?_, g5⟩
          rw [hpi, List.length_cons, List.take_succ_cons] at g4
          simp only [SameName, List.map_cons, List.cons.injEq] at g4
          exact g4.2
      · have h7' : lower (peek s i) ≠ peek p i := by rw [lower_eq]; exact h7
        have : (if peek s i > 127 then false else if lower (peek s i) ≠ peek p i then false else fallback p s n (i + 1) false) = false := by
          rw [if_pos h7']; simp
        rw [this]
        simp only [Bool.false_eq_true, false_iff]
        rintro ⟨a, d, ds, t, g1, g2, g3, g4, g5⟩
        obtain ⟨a', rfl, g6⟩ := ha a d ds t g1
        rw [hpi, List.length_cons, List.take_succ_cons] at g4
        simp only [SameName, List.map_cons, List.cons.injEq] at g4
        exact h7 (g4.1.trans (hp _ hpm).1)

/-! ### a protected file -/

/-- what the check needs of a file's name and hash -/
structure FileOK (file hash : Bytes) : Prop where
  nul : 0 ∉ file
  slash : c!"/" ∉ file
  len : 6 ≤ file.length
  dot : low (peek file 0) ≠ c!"."
  hlen : hash.length = 6
  hash : ∀ c ∈ hash, low c = c ∧ c ≤ 127 ∧ c ≠ 0 ∧ c ≠ c!"~" ∧ c ≠ c!"/" ∧ c ≠ c!"."

theorem fileOK (f : GitFile) : FileOK f.name f.hash := by
  cases f
  · exact ⟨by decide, by decide, by decide, by decide +kernel, by decide, by decide +kernel⟩
  · exact ⟨by decide, by decide, by decide, by decide +kernel, by decide, by decide +kernel⟩
  · exact ⟨by decide, by decide, by decide, by decide +kernel, by decide, by decide +kernel⟩

/-- the end of a component's text, for the last component or another one -/
def EndAt (o : Option Bytes) (u : Bytes) : Prop := NtfsEndsMid u ∨ (o = none ∧ Dropped u)

theorem digit_not_slash (c : UInt8) (h : Digit c) : c ≠ c!"/" := by revert h; revert c; decide +kernel
theorem d14 (d : UInt8) (h : c!"1" ≤ d ∧ d ≤ c!"4") : d ≠ c!"/" ∧ d ≠ 0 := by revert h; revert d; decide +kernel

theorem form_head {file hash n : Bytes} (ok : FileOK file hash) (h : NtfsForm file hash n) : peek n 0 = c!"." ↔ SameName n (c!"." :: file) := by
  constructor
  · intro h0
    rcases h with h | ⟨a, d, rfl, h1, _⟩ | ⟨a, d, ds, rfl, _, h2, h3, h4, _⟩
    · exact h
    · exfalso
      cases a with
      | nil =>
        have := h1.length
        have := ok.len
        simp [List.length_take] at *
        omega
      | cons x a =>
        have hx : x = c!"." := h0
        cases hf : file with
        | nil => have := ok.len; simp [hf] at this
        | cons y ys =>
          have hd := ok.dot
          rw [hf] at h1 hd
          simp only [SameName, List.map_cons, List.take_succ_cons, List.cons.injEq] at h1
          rw [hx] at h1
          exact hd (h1.1.symm)
    · exfalso
      cases a with
      | nil => exact absurd (show c!"~" = c!"." from h0) (by decide)
      | cons x a =>
        have hx : x = c!"." := h0
        have : c!"." ∈ hash.take (a.length + 1) := Spec.SameName.mem (x := c!".") (fun c => by revert c; decide +kernel) (by simpa using h3) (by simp [hx])
        exact absurd rfl (ok.hash _ (List.mem_of_mem_take this)).2.2.2.2.2
  · intro h1
    cases n with
    | nil => simp [SameName] at h1
    | cons x n =>
      simp only [SameName, List.map_cons, List.cons.injEq] at h1
      have : ∀ x, low x = low c!"." → x = c!"." := by decide +kernel
      exact this x h1.1

theorem form_len {file hash n : Bytes} (h : NtfsForm file hash n) (ok : FileOK file hash) : SameName n (c!"." :: file) ∨ n.length = 8 := by
  rcases h with h | ⟨a, d, rfl, h1, _⟩ | ⟨a, d, ds, rfl, h1, _⟩
  · exact .inl h
  · right
    have := h1.length
    have := ok.len
    simp [List.length_take] at *
    omega
  · exact .inr h1

theorem validNtfsGeneric_iff {file hash comp : Bytes} {o : Option Bytes} (ok : FileOK file hash) :
    validNtfsGeneric (comp ++ tail o) comp.length file hash = false ↔ ∃ n u, comp = n ++ u ∧ NtfsForm file hash n ∧ EndAt o u := by
  have eA : (peek (comp ++ tail o) 0 = c!"." ∧ comp.length ≥ file.length ∧ caseEq ((comp ++ tail o).drop 1) file) ↔
      ∃ n u, comp = n ++ u ∧ SameName n (c!"." :: file) := by
    rw [caseEq_iff _ _ ok.nul]
    constructor
    · rintro ⟨h1, _, a, t, h3, h4⟩
      have h5 : comp ++ tail o = (c!"." :: a) ++ t := by
        rcases drop_cases (comp ++ tail o) 0 with ⟨_, h⟩ | h
        · rw [h] at h1; exact absurd h1 (by decide)
        · rw [List.drop_zero, h1] at h
          rw [h, h3]; rfl
      obtain ⟨u, h6, _⟩ := inside h5 (by
        intro hm
        rcases List.mem_cons.mp hm with hm | hm
        · exact absurd hm (by decide)
        · exact not_slash h4 ok.slash hm)
      exact ⟨_, u, h6, by simp only [SameName, List.map_cons, show a.map low = file.map low from h4]⟩
    · rintro ⟨n, u, rfl, h⟩
      cases n with
      | nil => simp [SameName] at h
      | cons x n =>
        simp only [SameName, List.map_cons, List.cons.injEq] at h
        have hx : x = c!"." := by
          have : ∀ x, low x = low c!"." → x = c!"." := by decide +kernel
          exact this x h.1
        have hl : n.length = file.length := Spec.SameName.length h.2
        exact ⟨hx, by simp; omega, n, u ++ tail o, by simp, h.2⟩
  have eB : (caseEq (comp ++ tail o) (file.take 6) ∧ peek (comp ++ tail o) 6 = c!"~" ∧ c!"1" ≤ peek (comp ++ tail o) 7 ∧ peek (comp ++ tail o) 7 ≤ c!"4") ↔
      ∃ n u, comp = n ++ u ∧ ∃ a d, n = a ++ [c!"~", d] ∧ SameName a (file.take 6) ∧ c!"1" ≤ d ∧ d ≤ c!"4" := by
    have hl6 : (file.take 6).length = 6 := by have := ok.len; simp; omega
    rw [caseEq_iff _ _ (fun h => ok.nul (List.mem_of_mem_take h))]
    constructor
    · rintro ⟨⟨a, t, h1, h2⟩, h3, h4, h5⟩
      have hal : a.length = 6 := h2.length.trans hl6
      have h6 := peek_append_ge a t 0
      have h7 := peek_append_ge a t 1
      rw [hal, ← h1] at h6 h7
      rw [h3] at h6
      obtain ⟨t, rfl⟩ : ∃ t', t = c!"~" :: t' := by
        rcases drop_cases t 0 with ⟨_, h⟩ | h
        · rw [h] at h6; exact absurd h6 (by decide)
        · rw [List.drop_zero, ← h6] at h; exact ⟨_, h⟩
      rw [peek_succ_cons] at h7
      rw [h7] at h4 h5
      have hnz := d14 _ ⟨h4, h5⟩
      obtain ⟨d, t, rfl⟩ : ∃ d t', t = d :: t' := by
        rcases drop_cases t 0 with ⟨_, h⟩ | h
        · exact absurd h hnz.2
        · rw [List.drop_zero] at h; exact ⟨_, _, h⟩
      rw [peek_zero_cons] at h4 h5 hnz
      have h8 : comp ++ tail o = (a ++ [c!"~", d]) ++ t := by simpa using h1
      obtain ⟨u, h9, _⟩ := inside h8 (by
        intro hm
        rcases List.mem_append.mp hm with hm | hm
        · exact not_slash h2 (fun h => ok.slash (List.mem_of_mem_take h)) hm
        · rcases List.mem_cons.mp hm with hm | hm
          · exact absurd hm (by decide)
          · rw [List.mem_singleton] at hm
            exact hnz.1 hm.symm)
      exact ⟨_, u, h9, a, d, rfl, h2, h4, h5⟩
    · rintro ⟨n, u, rfl, a, d, rfl, h1, h2, h3⟩
      have hal : a.length = 6 := h1.length.trans hl6
      have h6 := peek_append_ge a (c!"~" :: d :: (u ++ tail o)) 0
      have h7 := peek_append_ge a (c!"~" :: d :: (u ++ tail o)) 1
      rw [hal] at h6 h7
      rw [show a ++ [c!"~", d] ++ u ++ tail o = a ++ c!"~" :: d :: (u ++ tail o) by simp]
      refine ⟨⟨a, _, rfl, h1⟩, h6, ?_, ?_⟩
      · rw [show (7 : Nat) = 6 + 1 from rfl, h7]; exact h2
      · rw [show (7 : Nat) = 6 + 1 from rfl, h7]; exact h3
  have eC : fallback hash (comp ++ tail o) 8 0 false = true ↔ ∃ n u, comp = n ++ u ∧ ∃ a d ds, n = a ++ c!"~" :: d :: ds ∧ n.length = 8 ∧ a.length ≤ 6 ∧
      SameName a (hash.take a.length) ∧ Digit d ∧ d ≠ c!"0" ∧ ∀ x ∈ ds, Digit x := by
    rw [fallback_false hash _ ok.hlen (fun c hc => ⟨(ok.hash c hc).1, (ok.hash c hc).2.1, (ok.hash c hc).2.2.1, (ok.hash c hc).2.2.2.1⟩) 8 0 (by omega) rfl]
    simp only [List.drop_zero, Nat.zero_add]
    constructor
    · rintro ⟨a, d, ds, t, h1, h2, h3, h4, h5, h6, h7⟩
      have h8 : comp ++ tail o = (a ++ c!"~" :: d :: ds) ++ t := by simpa using h1
      obtain ⟨u, h9, _⟩ := inside h8 (by
        intro hm
        rcases List.mem_append.mp hm with hm | hm
        · exact not_slash h4 (fun h => absurd rfl (ok.hash _ (List.mem_of_mem_take h)).2.2.2.2.1) hm
        · rcases List.mem_cons.mp hm with hm | hm
          · exact absurd hm (by decide)
          · rcases List.mem_cons.mp hm with hm | hm
            · exact digit_not_slash d h5 hm.symm
            · exact digit_not_slash _ (h7 _ hm) rfl)
      exact ⟨_, u, h9, a, d, ds, rfl, by simp; omega, h3, h4, h5, h6, h7⟩
    · rintro ⟨n, u, rfl, a, d, ds, rfl, h2, h3, h4, h5, h6, h7⟩
      refine ⟨a, d, ds, u ++ tail o, by simp, by simp at h2; omega, h3, h4, h5, h6, h7⟩
  have fin : ∀ n u, comp = n ++ u → ((!(ntfsEnd ((comp ++ tail o).drop n.length))) = false ↔ EndAt o u) := by
    rintro n u rfl
    rw [List.append_assoc, List.drop_left, EndAt, ← ntfsEnd_tail]
    simp
  unfold validNtfsGeneric
  by_cases hA : peek (comp ++ tail o) 0 = c!"." ∧ comp.length ≥ file.length ∧ caseEq ((comp ++ tail o).drop 1) file
  · rw [if_pos hA]
    obtain ⟨n, u, h1, h2⟩ := eA.mp hA
    have hl : n.length = file.length + 1 := h2.length
    rw [← hl, fin n u h1]
    constructor
    · exact fun h => ⟨n, u, h1, .inl h2, h⟩
    · rintro ⟨m, v, h3, h4, h5⟩
      have h6 : peek m 0 = c!"." := by
        have := hA.1
        have hm : m ≠ [] := by
          rintro rfl
          rcases form_len h4 ok with h | h
          · simp [SameName] at h
          · simp at h
        cases m with
        | nil => exact absurd rfl hm
        | cons x m => rw [h3] at this; exact this
      have h7 := (form_head ok h4).mp h6
      have : u = v := (List.append_inj (h1.symm.trans h3) (by rw [h2.length, h7.length])).2
      rwa [this]
  · rw [if_neg hA]
    have noA : ∀ m v, comp = m ++ v → NtfsForm file hash m → m.length = 8 := by
      intro m v h1 h2
      rcases form_len h2 ok with h | h
      · exact absurd (eA.mpr ⟨m, v, h1, h⟩) hA
      · exact h
    have eight : ∀ n u, comp = n ++ u → NtfsForm file hash n → ((!(ntfsEnd ((comp ++ tail o).drop 8))) = false ↔ ∃ n u, comp = n ++ u ∧ NtfsForm file hash n ∧ EndAt o u) := by
      intro n u h1 h2
      have hl := noA n u h1 h2
      have := fin n u h1
      rw [hl] at this
      rw [this]
      constructor
      · exact fun h => ⟨n, u, h1, h2, h⟩
      · rintro ⟨m, v, h3, h4, h5⟩
        have : u = v := (List.append_inj (h1.symm.trans h3) (by rw [hl, noA m v h3 h4])).2
        rwa [this]
    by_cases hB : caseEq (comp ++ tail o) (file.take 6) ∧ peek (comp ++ tail o) 6 = c!"~" ∧ c!"1" ≤ peek (comp ++ tail o) 7 ∧ peek (comp ++ tail o) 7 ≤ c!"4"
    · rw [if_pos hB]
      obtain ⟨n, u, h1, h2⟩ := eB.mp hB
      exact eight n u h1 (.inr (.inl h2))
    · rw [if_neg hB]
      by_cases hC : fallback hash (comp ++ tail o) 8 0 false = true
      · rw [if_pos hC]
        obtain ⟨n, u, h1, h2⟩ := eC.mp hC
        exact eight n u h1 (.inr (.inr h2))
      · rw [if_neg hC]
        simp only [Bool.true_eq_false, false_iff]
        rintro ⟨n, u, h1, h2 | h2 | h2, _⟩
        · exact hA (eA.mpr ⟨n, u, h1, h2⟩)
        · exact hB (eB.mpr ⟨n, u, h1, h2⟩)
        · exact hC (eC.mpr ⟨n, u, h1, h2⟩)

end Verif.PathValid
