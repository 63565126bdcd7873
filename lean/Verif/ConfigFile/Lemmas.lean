import Verif.ConfigFile.Spec
/-! # Lines, and the effect of the newline the writer adds -/
namespace Verif.ConfigFile
open Commit (isspace)
open ConfigVal (toLower caseEq)
open Sig (cstr)

theorem line_append (t : Bytes) : lineOf t ++ afterLine t = t := by
  induction t with
  | nil => rfl
  | cons c r ih => by_cases h : c = 10 <;> simp [lineOf, afterLine, h, ih]

theorem lineOf_body (b T : Bytes) (h : ∀ x ∈ b, x ≠ 10) : lineOf (b ++ 10 :: T) = b ++ [10] := by
  induction b with
  | nil => simp [lineOf]
  | cons c r ih =>
    have := ih (fun x hx => h x (by simp [hx]))
    simp [lineOf, h c (by simp), this]

theorem afterLine_body (b T : Bytes) (h : ∀ x ∈ b, x ≠ 10) : afterLine (b ++ 10 :: T) = T := by
  induction b with
  | nil => simp [afterLine]
  | cons c r ih =>
    have := ih (fun x hx => h x (by simp [hx]))
    simp [afterLine, h c (by simp), this]

theorem line_cases (t : Bytes) (ht : t ≠ []) :
    ∃ b, (∀ x ∈ b, x ≠ 10) ∧ ((lineOf t = b ++ [10]) ∨ (lineOf t = b ∧ b ≠ [] ∧ afterLine t = [])) := by
  induction t with
  | nil => exact absurd rfl ht
  | cons c r ih =>
    by_cases h : c = 10
    · exact ⟨[], by simp, Or.inl (by simp [lineOf, h])⟩
    · by_cases hr : r = []
      · exact ⟨[c], by simp [h], Or.inr (by simp [lineOf, afterLine, h, hr])⟩
      · obtain ⟨b, hb, hcase⟩ := ih hr
        refine ⟨c :: b, by simpa [h] using hb, ?_⟩
        rcases hcase with h1 | ⟨h1, h2, h3⟩
        · exact Or.inl (by simp [lineOf, h, h1])
        · exact Or.inr (by simp [lineOf, afterLine, h, h1, h3])

theorem withNl_nl (b : Bytes) : withNl (b ++ [10]) = b ++ [10] := by simp [withNl]

theorem withNl_body (b : Bytes) (hb : b ≠ []) (h : ∀ x ∈ b, x ≠ 10) : withNl b = b ++ [10] := by
  unfold withNl
  rcases list_snoc_induction (p := fun l => l = [] ∨ ∃ i a, l = i ++ [a]) (Or.inl rfl) (fun l a _ => Or.inr ⟨l, a, rfl⟩) b with h0 | ⟨i, a, rfl⟩
  · exact absurd h0 hb
  · have : a ≠ 10 := h a (by simp)
    simp [this]

/-- a line `l` with body `b` -/
def LineOf (l b : Bytes) : Prop := (∀ x ∈ b, x ≠ 10) ∧ (l = b ++ [10] ∨ (l = b ∧ b ≠ []))

theorem LineOf.nl {l b : Bytes} (h : LineOf l b) : withNl l = b ++ [10] := by
  rcases h with ⟨hb, rfl | ⟨rfl, hne⟩⟩
  · exact withNl_nl b
  · exact withNl_body _ hne hb

theorem LineOf.line {l b : Bytes} (h : LineOf l b) (T : Bytes) : lineOf (withNl l ++ T) = b ++ [10] := by
  rw [h.nl]; simpa using lineOf_body b T h.1

theorem LineOf.after {l b : Bytes} (h : LineOf l b) (T : Bytes) : afterLine (withNl l ++ T) = T := by
  rw [h.nl]; simpa using afterLine_body b T h.1

theorem cstr_snoc (x : Bytes) : cstr (x ++ [10]) = if 0 ∈ x then cstr x else cstr x ++ [10] := by
  unfold cstr
  induction x with
  | nil => simp
  | cons c r ih =>
    by_cases h : c = 0
    · simp [h]
    · have hz : ((0 : UInt8) = c) = False := by simpa using fun e => h e.symm
      rw [List.cons_append, List.takeWhile_cons_of_pos (by simp [h]), List.takeWhile_cons_of_pos (by simp [h]), ih]
      by_cases hr : (0 : UInt8) ∈ r <;> simp [hr, hz]

theorem cstr_noz (x : Bytes) (h : 0 ∉ x) : cstr x = x := by
  unfold cstr
  induction x with
  | nil => rfl
  | cons c r ih =>
    have h1 : c ≠ 0 := fun e => h (by simp [e])
    rw [List.takeWhile_cons_of_pos (by simpa using h1), ih (fun e => h (by simp [e]))]

theorem rtrim_snoc (x : Bytes) : rtrim (x ++ [10]) = rtrim x := by
  have h : isspace 10 = true := by decide
  simp [rtrim, h]

theorem skipWs_snoc (b : Bytes) : skipWs (b ++ [10]) = skipWs b ++ [10] := by
  unfold skipWs
  induction b with
  | nil => simp
  | cons c r ih =>
    rw [List.cons_append, List.dropWhile_cons, List.dropWhile_cons]
    by_cases h : (decide (c ≠ 10 ∧ isspace c = true)) = true
    · rw [if_pos h, if_pos h, ih]
    · rw [if_neg h, if_neg h]; rfl

theorem stripLoop_snoc (x : Bytes) : ∀ p q bs,
    rtrim (stripLoop p q bs (x ++ [10])).1 = rtrim (stripLoop p q bs x).1 ∧ (stripLoop p q bs (x ++ [10])).2 = (stripLoop p q bs x).2 := by
  suffices h : ∀ p q bs, ((stripLoop p q bs (x ++ [10])).1 = (stripLoop p q bs x).1 ∨ (stripLoop p q bs (x ++ [10])).1 = (stripLoop p q bs x).1 ++ [10]) ∧
      (stripLoop p q bs (x ++ [10])).2 = (stripLoop p q bs x).2 by
    intro p q bs
    refine ⟨?_, (h p q bs).2⟩
    rcases (h p q bs).1 with h | h
    · rw [h]
    · rw [h, rtrim_snoc]
  induction x with
  | nil => intro p q bs; simp [stripLoop]
  | cons c r ih =>
    intro p q bs
    rw [List.cons_append, stripLoop, stripLoop]
    generalize (if c = 34 ∧ p ≠ some 92 then q + 1 else q) = q'
    by_cases hc : (c = 59 ∨ c = 35) ∧ q' % 2 = 0 ∧ bs % 2 = 0
    · simp [hc]
    · simp only [hc, if_false]
      have := ih (some c) q' (if c = 92 then bs + 1 else 0)
      refine ⟨?_, this.2⟩
      rcases this.1 with h | h
      · left; rw [h]
      · right; rw [h]; rfl

theorem strip_snoc (x : Bytes) (q : Nat) : stripComments (x ++ [10]) q = stripComments x q := by
  unfold stripComments
  rw [(stripLoop_snoc x none q 0).1, (stripLoop_snoc x none q 0).2]

theorem strip_cstr_snoc (x : Bytes) (q : Nat) : stripComments (cstr (x ++ [10])) q = stripComments (cstr x) q := by
  rw [cstr_snoc]; by_cases h : 0 ∈ x <;> simp only [h, if_true, if_false]
  exact strip_snoc _ _

theorem lineStr_snoc (b : Bytes) : lineStr (b ++ [10]) = if 0 ∈ skipWs b then lineStr b else lineStr b ++ [10] := by
  rw [lineStr, skipWs_snoc, cstr_snoc]; rfl

theorem LineOf.strip {l b : Bytes} (h : LineOf l b) (q : Nat) : stripComments (lineStr (withNl l)) q = stripComments (lineStr l) q := by
  rw [h.nl]
  rcases h.2 with rfl | ⟨rfl, _⟩
  · rfl
  · rw [lineStr_snoc]; by_cases h : 0 ∈ skipWs l <;> simp only [h, if_true, if_false]
    exact strip_snoc _ _

/-! ### headers -/

theorem endSub_snoc (l acc : Bytes) (p : Bytes × Bytes) (h : endSub l acc = .ok p) : endSub (l ++ [10]) acc = .ok (p.1, p.2 ++ [10]) := by
  unfold endSub at *
  match l, h with
  | c :: d :: r, h =>
    simp only [List.cons_append] at *
    by_cases hc : c = 34 ∧ d = 93
    · rw [if_pos hc] at h ⊢
      have := Res.ok.inj h; subst this; rfl
    · rw [if_neg hc] at h; cases h

theorem tail_snoc_mem (r : Bytes) : (34 : UInt8) ∈ (r ++ [10]).tail ↔ 34 ∈ r.tail := by
  cases r <;> simp

theorem subLoop_quote (r acc : Bytes) : subLoop (34 :: r) acc = endSub (34 :: r) acc := by
  rw [subLoop.eq_def]; simp
theorem subLoop_bs (d : UInt8) (r acc : Bytes) : subLoop (92 :: d :: r) acc =
    if 34 ∈ r.tail then subLoop r (acc ++ [d]) else endSub r (acc ++ [d]) := by
  rw [subLoop.eq_def]; simp
theorem subLoop_char (c : UInt8) (r acc : Bytes) (h1 : c ≠ 34) (h2 : c ≠ 92) : subLoop (c :: r) acc =
    if 34 ∈ r.tail then subLoop r (acc ++ [c]) else endSub r (acc ++ [c]) := by
  rw [subLoop.eq_def]; simp [h1, h2]

theorem subLoop_snoc (n : Nat) : ∀ (l acc : Bytes) (p : Bytes × Bytes), l.length ≤ n → subLoop l acc = .ok p →
    subLoop (l ++ [10]) acc = .ok (p.1, p.2 ++ [10]) := by
  induction n with
  | zero =>
    intro l acc p hl h
    have : l = [] := by simpa using hl
    subst this; cases h
  | succ n ih =>
    intro l acc p hl h
    match l with
    | [] => cases h
    | c :: r =>
      by_cases h1 : c = 34
      · subst h1
        rw [subLoop_quote] at h
        rw [List.cons_append, subLoop_quote]; exact endSub_snoc _ _ _ h
      · by_cases h2 : c = 92
        · subst h2
          match r with
          | [] => rw [subLoop.eq_def] at h; simp at h
          | d :: r' =>
            rw [subLoop_bs] at h
            rw [List.cons_append, List.cons_append, subLoop_bs]
            by_cases hm : (34 : UInt8) ∈ r'.tail
            · rw [if_pos hm] at h; rw [if_pos ((tail_snoc_mem _).2 hm)]
              exact ih _ _ _ (by simp at hl; omega) h
            · rw [if_neg hm] at h; rw [if_neg (fun e => hm ((tail_snoc_mem _).1 e))]
              exact endSub_snoc _ _ _ h
        · rw [subLoop_char _ _ _ h1 h2] at h
          rw [List.cons_append, subLoop_char _ _ _ h1 h2]
          by_cases hm : (34 : UInt8) ∈ r.tail
          · rw [if_pos hm] at h; rw [if_pos ((tail_snoc_mem _).2 hm)]
            exact ih _ _ _ (by simp at hl; omega) h
          · rw [if_neg hm] at h; rw [if_neg (fun e => hm ((tail_snoc_mem _).1 e))]
            exact endSub_snoc _ _ _ h

theorem parseSub_snoc (base l : Bytes) (p : Bytes × Bytes) (h : parseSub base l = .ok p) : parseSub base (l ++ [10]) = .ok (p.1, p.2 ++ [10]) := by
  unfold parseSub at *
  have : (l ++ [10]).dropWhile isspace = match l.dropWhile isspace with | [] => [] | c :: r => c :: r ++ [10] := by
    induction l with
    | nil => decide
    | cons c r ih =>
      by_cases hc : isspace c = true
      · have h' : parseSub base (c :: r) = parseSub base r := by simp [parseSub, hc]
        simp only [List.cons_append, List.dropWhile_cons_of_pos hc] at h ⊢
        exact ih h
      · simp [hc]
  rw [this]
  cases hd : l.dropWhile isspace with
  | nil => rw [hd] at h; cases h
  | cons c r =>
    rw [hd] at h
    simp only [List.cons_append] at h ⊢
    by_cases h1 : c ≠ 34
    · rw [if_pos h1] at h; cases h
    · rw [if_neg h1] at h ⊢
      by_cases h2 : (34 : UInt8) ∉ r
      · rw [if_pos h2] at h; cases h
      · rw [if_neg h2] at h
        rw [if_neg (by simpa using h2)]
        exact subLoop_snoc _ _ _ _ (Nat.le_refl _) h

theorem secLoop_snoc (l acc : Bytes) (p : Bytes × Bytes) (h : secLoop l acc = .ok p) : secLoop (l ++ [10]) acc = .ok (p.1, p.2 ++ [10]) := by
  induction l generalizing acc with
  | nil => cases h
  | cons c r ih =>
    rw [secLoop] at h
    rw [List.cons_append, secLoop]
    by_cases h1 : isspace c = true
    · rw [if_pos h1] at h ⊢; exact parseSub_snoc _ _ _ h
    · rw [if_neg h1] at h ⊢
      by_cases h2 : (!keychar c && decide (c ≠ 46)) = true
      · rw [if_pos h2] at h; cases h
      · rw [if_neg h2] at h ⊢
        by_cases h3 : r.head? = some 93
        · rw [if_pos h3] at h
          have hr : (r ++ [10]).head? = some 93 := by cases r <;> simp_all
          rw [if_pos hr]
          have := Res.ok.inj h; subst this
          cases r <;> simp_all
        · rw [if_neg h3] at h
          have hr : (r ++ [10]).head? ≠ some 93 := by cases r <;> simp_all
          rw [if_neg hr]
          exact ih _ h

theorem parseHeaderStr_snoc (l : Bytes) (p : Bytes × Bytes) (h : parseHeaderStr l = .ok p) : parseHeaderStr (l ++ [10]) = .ok (p.1, p.2 ++ [10]) := by
  unfold parseHeaderStr at *
  by_cases h1 : (93 : UInt8) ∉ l
  · rw [if_pos h1] at h; cases h
  · rw [if_neg h1] at h
    rw [if_neg (by simpa using h1)]
    match l, h with
    | c :: r, h =>
      simp only [List.cons_append] at h ⊢
      by_cases h2 : c ≠ 91
      · rw [if_pos h2] at h; cases h
      · rw [if_neg h2] at h ⊢; exact secLoop_snoc _ _ _ h

theorem cstr_len (x : Bytes) : (cstr x).length ≤ x.length := by
  unfold cstr; exact (List.takeWhile_prefix _).length_le

/-- the rest of the header's line, with or without the newline at its end -/
theorem LineOf.header {l b : Bytes} (h : LineOf l b) {p : Bytes × Bytes} (hp : parseHeader l = .ok p) :
    ∃ r, parseHeader (withNl l) = .ok (p.1, r) ∧ (r = p.2 ∨ r = p.2 ++ [10]) := by
  rw [h.nl]
  rcases h.2 with rfl | ⟨rfl, _⟩
  · exact ⟨p.2, hp, Or.inl rfl⟩
  · unfold parseHeader at hp ⊢
    rw [lineStr_snoc, skipWs_snoc]
    cases hs : parseHeaderStr (lineStr l) with
    | err e => rw [hs] at hp; cases hp
    | ub => rw [hs] at hp; cases hp
    | ok q =>
      rw [hs] at hp
      have hp := Res.ok.inj hp
      subst hp
      have hlen : (lineStr l).length - q.2.length ≤ (skipWs l).length := Nat.le_trans (Nat.sub_le _ _) (cstr_len _)
      by_cases hz : 0 ∈ skipWs l
      · simp only [hz, if_true, hs]
        exact ⟨_, rfl, Or.inr (List.drop_append_of_le_length hlen)⟩
      · simp only [hz, if_false, parseHeaderStr_snoc _ _ hs]
        refine ⟨_, rfl, Or.inr ?_⟩
        rw [← List.drop_append_of_le_length hlen]
        simp

/-! ### the first character -/

theorem LineOf.ne {l b : Bytes} (h : LineOf l b) : l ≠ [] := by
  rcases h.2 with rfl | ⟨rfl, hne⟩
  · simp
  · exact hne

theorem LineOf.firstChar {l b : Bytes} (h : LineOf l b) : firstChar (withNl l) = firstChar l := by
  rw [h.nl]
  rcases h.2 with rfl | ⟨rfl, hne⟩
  · rfl
  · have hs : isspace 10 = true := by decide
    unfold ConfigFile.firstChar
    rw [List.find?_append]
    cases hf : List.find? (fun c => !isspace c) l with
    | some c => simp
    | none => cases l with
      | nil => exact absurd rfl hne
      | cons => simp [hs]

theorem firstChar_ne (l : Bytes) (h : l ≠ []) : ∃ c, firstChar l = some c := by
  unfold ConfigFile.firstChar
  cases hf : List.find? (fun c => !isspace c) l with
  | some c => exact ⟨c, rfl⟩
  | none => cases l with
    | nil => exact absurd rfl h
    | cons c => exact ⟨c, rfl⟩

theorem any_nl (r : Bytes) : (r ++ [10]).any (fun c => !isspace c) = r.any (fun c => !isspace c) := by
  have hs : isspace 10 = true := by decide
  simp [hs]

end Verif.ConfigFile
