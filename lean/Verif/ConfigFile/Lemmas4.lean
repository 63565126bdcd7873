import Verif.ConfigFile.Lemmas3
/-! # The lines the writer makes up -/
namespace Verif.ConfigFile
open Commit (isspace)
open ConfigVal (toLower caseEq)
open Sig (cstr)

/-! ### escaping -/

theorem escapeOf_cases (c : UInt8) : (escapeChar c = [c] ∧ c ≠ 10 ∧ c ≠ 9 ∧ c ≠ 8 ∧ c ≠ 34 ∧ c ≠ 92) ∨
    (∃ e, escapeChar c = [92, e] ∧ escaped e = some c ∧ (e = 110 ∨ e = 116 ∨ e = 98 ∨ e = 34 ∨ e = 92) ∧ (c = 10 ∨ c = 9 ∨ c = 8 ∨ c = 34 ∨ c = 92) ∧
      (e = 34 ↔ c = 34) ∧ (c ≠ 10 → c ≠ 9 → c ≠ 8 → e = c)) := by
  by_cases h1 : c = 10
  · exact Or.inr ⟨110, by subst h1; decide⟩
  by_cases h2 : c = 9
  · exact Or.inr ⟨116, by subst h2; decide⟩
  by_cases h3 : c = 8
  · exact Or.inr ⟨98, by subst h3; decide⟩
  by_cases h4 : c = 34
  · exact Or.inr ⟨34, by subst h4; decide⟩
  by_cases h5 : c = 92
  · exact Or.inr ⟨92, by subst h5; decide⟩
  · exact Or.inl ⟨by simp [escapeChar, escapeOf, h1, h2, h3, h4, h5], h1, h2, h3, h4, h5⟩

theorem escapeValue_cons (c : UInt8) (v : Bytes) : escapeValue (c :: v) = escapeChar c ++ escapeValue v := rfl

theorem escapeValue_append (a b : Bytes) : escapeValue (a ++ b) = escapeValue a ++ escapeValue b := by simp [escapeValue]

theorem escapeValue_nil (v : Bytes) : escapeValue v = [] ↔ v = [] := by
  cases v with
  | nil => simp [escapeValue]
  | cons c v =>
    rw [escapeValue_cons]
    rcases escapeOf_cases c with h | ⟨e, h, _⟩ <;> simp [h]

theorem escapeValue_no (v : Bytes) (x : UInt8) (hx : x ≠ 92) (hx2 : x ≠ 110) (hx3 : x ≠ 116) (hx4 : x ≠ 98) (hx5 : x ≠ 34)
    (h : x ∈ escapeValue v) : x ∈ v ∧ x ≠ 10 := by
  unfold escapeValue at h
  rw [List.mem_flatMap] at h
  obtain ⟨c, hc, hx'⟩ := h
  rcases escapeOf_cases c with ⟨h, h1, _⟩ | ⟨e, h, _, he, _⟩
  · rw [h] at hx'; simp at hx'; subst hx'; exact ⟨hc, h1⟩
  · rw [h] at hx'
    simp [hx] at hx'
    subst hx'
    simp_all

theorem escapeValue_mem (v : Bytes) (x : UInt8) (h1 : x = 59 ∨ x = 35) : x ∈ escapeValue v ↔ x ∈ v := by
  constructor
  · intro h
    refine (escapeValue_no v x ?_ ?_ ?_ ?_ ?_ h).1 <;> rcases h1 with rfl | rfl <;> decide
  · intro h
    unfold escapeValue
    rw [List.mem_flatMap]
    refine ⟨x, h, ?_⟩
    rcases h1 with rfl | rfl <;> decide

theorem unescape_nil : unescape [] = .ok ([], false) := rfl
theorem unescape_quote (r : Bytes) : unescape (34 :: r) = unescape r := by rw [unescape.eq_def]; simp
theorem unescape_char (c : UInt8) (r : Bytes) (h1 : c ≠ 34) (h2 : c ≠ 92) : unescape (c :: r) = consTo c (unescape r) := by
  rw [unescape.eq_def]; simp [h1, h2]
theorem unescape_esc (d e : UInt8) (r : Bytes) (h : escaped d = some e) : unescape (92 :: d :: r) = consTo e (unescape r) := by
  rw [unescape.eq_def]; simp [h]

theorem unescape_escape (v r a : Bytes) (m : Bool) (h : unescape r = .ok (a, m)) : unescape (escapeValue v ++ r) = .ok (v ++ a, m) := by
  induction v with
  | nil => simpa [escapeValue] using h
  | cons c v ih =>
    rw [escapeValue_cons, List.append_assoc]
    rcases escapeOf_cases c with ⟨hc, h1, h2, h3, h4, h5⟩ | ⟨e, hc, he, _⟩
    · rw [hc, List.singleton_append, unescape_char _ _ h4 h5, ih]; rfl
    · rw [hc, List.cons_append, List.singleton_append, unescape_esc _ _ _ he, ih]; rfl

/-! ### comments -/

theorem stripLoop_nocomment (l : Bytes) : ∀ p q bs, (∀ x ∈ l, x ≠ 59 ∧ x ≠ 35) → (stripLoop p q bs l).1 = l := by
  induction l with
  | nil => intros; rfl
  | cons c r ih =>
    intro p q bs h
    have h1 := h c (by simp)
    rw [stripLoop]
    simp only [h1.1, h1.2, or_self, false_and, if_false]
    rw [ih _ _ _ (fun x hx => h x (by simp [hx]))]

theorem stripLoop_prefix (l : Bytes) : ∀ p bs, (∀ x ∈ l, x ≠ 59 ∧ x ≠ 35 ∧ x ≠ 34 ∧ x ≠ 92) → l ≠ [] → ∀ r,
    (stripLoop p 0 bs (l ++ r)).1 = l ++ (stripLoop (l.getLast?) 0 0 r).1 := by
  induction l with
  | nil => intro p bs _ h; exact absurd rfl h
  | cons c l ih =>
    intro p bs h _ r
    have h1 := h c (by simp)
    rw [List.cons_append, stripLoop]
    simp only [h1.1, h1.2.1, h1.2.2.1, h1.2.2.2, or_self, false_and, if_false]
    by_cases hl : l = []
    · subst hl; simp
    · rw [ih _ _ (fun x hx => h x (by simp [hx])) hl r]
      have hg : (c :: l).getLast? = l.getLast? := by
        cases l with
        | nil => exact absurd rfl hl
        | cons d e => simp [List.getLast?_cons]
      rw [hg]; rfl

theorem stripLoop_odd (c : UInt8) (p : Option UInt8) (bs : Nat) (r : Bytes) (h : c ≠ 34 ∨ p = some 92) :
    (stripLoop p 1 bs (c :: r)).1 = c :: (stripLoop (some c) 1 (if c = 92 then bs + 1 else 0) r).1 := by
  have hq : (if c = 34 ∧ p ≠ some 92 then 1 + 1 else 1) = 1 := by
    rw [if_neg]; rintro ⟨h1, h2⟩; rcases h with h | h; exact h h1; exact h2 h
  rw [stripLoop]
  simp only [hq]
  simp

/-- inside the quotes nothing is cut off -/
theorem stripLoop_quoted (v : Bytes) : ∀ p bs, (stripLoop p 1 bs (escapeValue v ++ [34])).1 = escapeValue v ++ [34] := by
  induction v with
  | nil =>
    intro p bs
    rw [show escapeValue [] ++ [34] = [34] from rfl, stripLoop]
    simp [stripLoop]
  | cons c v ih =>
    intro p bs
    rw [escapeValue_cons, List.append_assoc]
    rcases escapeOf_cases c with ⟨hc, h1, h2, h3, h4, h5⟩ | ⟨e, hc, he, _⟩
    · rw [hc, List.singleton_append, stripLoop_odd _ _ _ _ (Or.inl h4), ih]
    · rw [hc]
      simp only [List.cons_append, List.nil_append]
      rw [stripLoop_odd _ _ _ _ (Or.inl (by decide)), stripLoop_odd _ _ _ _ (Or.inr rfl), ih]

theorem rtrim_keep (l : Bytes) (c : UInt8) (h : isspace c = false) : rtrim (l ++ [c]) = l ++ [c] := by
  simp [rtrim, h]

theorem getLast_cases {α : Type} (l : List α) : l = [] ∨ ∃ i a, l = i ++ [a] :=
  list_snoc_induction (p := fun l => l = [] ∨ ∃ i a, l = i ++ [a]) (Or.inl rfl) (fun l a _ => Or.inr ⟨l, a, rfl⟩) l

theorem alnum_space (x : UInt8) (h : isspace x = true) : x = 32 ∨ x = 9 ∨ x = 10 ∨ x = 11 ∨ x = 12 ∨ x = 13 := by
  revert x h; decide +kernel

theorem keychar_not (x : UInt8) (h : keychar x = true) : isspace x = false ∧ x ≠ 0 ∧ x ≠ 34 ∧ x ≠ 92 ∧ x ≠ 59 ∧ x ≠ 35 ∧ x ≠ 61 ∧ x ≠ 46 ∧ x ≠ 91 ∧ x ≠ 93 ∧ x ≠ 10 ∧ x ≠ 13 ∧ x ≠ 9 ∧ x ≠ 32 := by
  revert x h; decide +kernel

theorem sectionOk_keychar (n : Bytes) (h : sectionOk n = true) : n ≠ [] ∧ ∀ x ∈ n, keychar x = true := by
  cases n with
  | nil => simp [sectionOk] at h
  | cons c r =>
    simp only [sectionOk, Bool.and_eq_true, List.all_eq_true] at h
    refine ⟨by simp, ?_⟩
    intro x hx
    rcases List.mem_cons.1 hx with rfl | hx
    · have := h.1; simp [keychar, this]
    · exact h.2 x hx

/-- the value and its quotes: what the reader needs -/
structure Readable (u v : Bytes) : Prop where
  nonl : (10 : UInt8) ∉ u
  nonul : (0 : UInt8) ∉ u
  ne : u ≠ []
  head : ∀ c, u.head? = some c → isspace c = false
  last : ∀ c, u.getLast? = some c → isspace c = false
  strip : (stripLoop (some 32) 0 0 u).1 = u
  read : unescape u = .ok (v, false)

theorem quotes_iff (v : Bytes) : (quotesFor (escapeValue v) = [34] ∧ (v = [] ∨ v.head? = some 32 ∨ v.getLast? = some 32 ∨ ∃ c, (c = 59 ∨ c = 35) ∧ c ∈ v)) ∨
    (quotesFor (escapeValue v) = [] ∧ v ≠ [] ∧ v.head? ≠ some 32 ∧ v.getLast? ≠ some 32 ∧ ∀ c, (c = 59 ∨ c = 35) → c ∉ v) := by
  have hh : (escapeValue v).head? = some 32 ↔ v.head? = some 32 := by
    cases v with
    | nil => simp [escapeValue]
    | cons c v =>
      rw [escapeValue_cons]
      rcases escapeOf_cases c with ⟨h, _⟩ | ⟨e, h, _, _, hc, _⟩
      · simp [h]
      · rw [h]; simp; rintro rfl; simp at hc
  have hl : (escapeValue v).getLast? = some 32 ↔ v.getLast? = some 32 := by
    rcases getLast_cases v with rfl | ⟨i, c, rfl⟩
    · simp [escapeValue]
    · rw [escapeValue_append]
      have : escapeValue [c] = escapeChar c := by simp [escapeValue]
      rw [this]
      rcases escapeOf_cases c with ⟨h, _⟩ | ⟨e, h, _, he, hc, _⟩
      · simp [h]
      · rw [h]
        simp only [List.getLast?_append, List.getLast?_cons_cons, List.getLast?_singleton]
        simp
        constructor
        · rintro rfl; simp at he
        · rintro rfl; simp at hc
  have ha : (escapeValue v).any (fun c => decide (c = 59) || decide (c = 35)) = true ↔ ∃ c, (c = 59 ∨ c = 35) ∧ c ∈ v := by
    rw [List.any_eq_true]
    constructor
    · rintro ⟨x, hx, h⟩
      have h' : x = 59 ∨ x = 35 := by simpa using h
      exact ⟨x, h', (escapeValue_mem v x h').1 hx⟩
    · rintro ⟨x, h, hx⟩
      exact ⟨x, (escapeValue_mem v x h).2 hx, by simpa using h⟩
  unfold quotesFor
  by_cases h1 : v = []
  · left; subst h1; simp [escapeValue]
  by_cases h2 : v.head? = some 32
  · left; exact ⟨by rw [if_pos (Or.inl (hh.2 h2))], Or.inr (Or.inl h2)⟩
  have hn : ¬((escapeValue v).head? = some 32 ∨ escapeValue v = []) := by
    rw [hh, escapeValue_nil]; simp [h1, h2]
  rw [if_neg hn]
  by_cases h3 : ∃ c, (c = 59 ∨ c = 35) ∧ c ∈ v
  · left; exact ⟨by rw [if_pos (ha.2 h3)], Or.inr (Or.inr (Or.inr h3))⟩
  rw [if_neg (fun e => h3 (ha.1 e))]
  by_cases h4 : v.getLast? = some 32
  · left; exact ⟨by rw [if_pos (hl.2 h4)], Or.inr (Or.inr (Or.inl h4))⟩
  rw [if_neg (fun e => h4 (hl.1 e))]
  exact Or.inr ⟨rfl, h1, h2, h4, fun c hc hm => h3 ⟨c, hc, hm⟩⟩

theorem readable (v : Bytes) (hv : Value v) : Readable (quotesFor (escapeValue v) ++ escapeValue v ++ quotesFor (escapeValue v)) v := by
  have hz : (0 : UInt8) ∉ escapeValue v := fun h => hv.1 (escapeValue_no v 0 (by decide) (by decide) (by decide) (by decide) (by decide) h).1
  have hn : (10 : UInt8) ∉ escapeValue v := fun h =>
    (escapeValue_no v 10 (by decide) (by decide) (by decide) (by decide) (by decide) h).2 rfl
  rcases quotes_iff v with ⟨hq, _⟩ | ⟨hq, h1, h2, h3, h4⟩
  · rw [hq]
    refine ⟨?_, ?_, by simp, ?_, ?_, ?_, ?_⟩
    · simp [hn]
    · simp [hz]
    · intro c h; simp at h; subst h; decide
    · intro c h
      rw [List.getLast?_append] at h; simp at h; subst h; decide
    · rw [List.append_assoc, List.singleton_append, stripLoop]
      simp [stripLoop_quoted]
    · rw [List.append_assoc, List.singleton_append, unescape_quote]
      have := unescape_escape v [34] [] false (by rw [unescape_quote]; rfl)
      simpa using this
  · rw [hq]
    simp only [List.nil_append, List.append_nil]
    have hv2 : (∀ c, v.head? = some c → c ∉ ([13, 11, 12] : Bytes)) ∧ (∀ c, v.getLast? = some c → c ∉ ([13, 11, 12] : Bytes)) := by
      rcases hv.2 with ⟨c, h5, h6⟩ | h | h | h
      · exact absurd h6 (h4 c h5)
      · exact absurd h h2
      · exact absurd h h3
      · exact h
    refine ⟨hn, hz, fun e => h1 ((escapeValue_nil v).1 e), ?_, ?_, ?_, ?_⟩
    · intro c h
      cases hs : isspace c with
      | false => rfl
      | true =>
        exfalso
        have hsp := alnum_space c hs
        cases v with
        | nil => exact h1 rfl
        | cons d v =>
          rw [escapeValue_cons] at h
          have hd := hv2.1 d rfl
          rcases escapeOf_cases d with ⟨he, h6, h7, _⟩ | ⟨e, he, _⟩
          · rw [he] at h; simp at h; subst h
            rcases hsp with e | e | e | e | e | e
            · exact h2 (by rw [e]; rfl)
            · exact h7 e
            · exact h6 e
            · rw [e] at hd; simp at hd
            · rw [e] at hd; simp at hd
            · rw [e] at hd; simp at hd
          · rw [he] at h; simp at h; subst h; revert hs; decide
    · intro c h
      cases hs : isspace c with
      | false => rfl
      | true =>
        exfalso
        have hsp := alnum_space c hs
        rcases getLast_cases v with rfl | ⟨i, d, rfl⟩
        · exact h1 rfl
        · rw [escapeValue_append, show escapeValue [d] = escapeChar d by simp [escapeValue]] at h
          have hd := hv2.2 d (by simp)
          rcases escapeOf_cases d with ⟨he, h6, h7, _⟩ | ⟨e, he, _, h6, _⟩
          · rw [he] at h; simp at h; subst h
            rcases hsp with e | e | e | e | e | e
            · exact h3 (by rw [e]; simp)
            · exact h7 e
            · exact h6 e
            · rw [e] at hd; simp at hd
            · rw [e] at hd; simp at hd
            · rw [e] at hd; simp at hd
          · rw [he, List.getLast?_append] at h; simp at h; subst h
            rcases h6 with rfl | rfl | rfl | rfl | rfl <;> revert hs <;> decide
    · apply stripLoop_nocomment
      intro x hx
      constructor
      · rintro rfl; exact h4 59 (Or.inl rfl) ((escapeValue_mem v 59 (Or.inl rfl)).1 hx)
      · rintro rfl; exact h4 35 (Or.inr rfl) ((escapeValue_mem v 35 (Or.inr rfl)).1 hx)
    · have := unescape_escape v [] [] false rfl
      simpa using this

/-- the line `write_value` prints -/
theorem good_value (name v : Bytes) (c : Option Bytes) (hname : sectionOk name = true) (hv : Value v) :
    Good (valueLine name (escapeValue v)) c [(fullName c name, some v)] c := by
  have hr := readable v hv
  generalize hu : quotesFor (escapeValue v) ++ escapeValue v ++ quotesFor (escapeValue v) = u at hr
  obtain ⟨hne, hkey⟩ := sectionOk_keychar name hname
  have hbody : valueLine name (escapeValue v) = (9 :: name ++ [32, 61, 32] ++ u) ++ 10 :: [] := by
    unfold valueLine
    rw [← hu]
    simp
  have hb : ∀ x ∈ (9 :: name ++ [32, 61, 32] ++ u), x ≠ 10 := by
    intro x hx e
    subst e
    simp only [List.cons_append, List.mem_cons, List.mem_append] at hx
    rcases hx with h | h
    · cases h
    · rcases h with (h | h) | h
      · exact (keychar_not 10 (hkey 10 h)).2.2.2.2.2.2.2.2.2.2.1 rfl
      · simp at h
      · exact hr.nonl h
  refine good_of_line hb hbody ?_
  intro T
  obtain ⟨n0, nr, rfl⟩ : ∃ n0 nr, name = n0 :: nr := by cases name with | nil => exact absurd rfl hne | cons a b => exact ⟨a, b, rfl⟩
  have hn0 := keychar_not n0 (hkey n0 (by simp))
  have hfirst : firstChar ((9 :: (n0 :: nr) ++ [32, 61, 32] ++ u) ++ [10]) = some n0 := by
    have h9 : isspace 9 = true := by decide
    unfold firstChar
    simp [h9, hn0.1]
  have hws : skipWs ((9 :: (n0 :: nr) ++ [32, 61, 32] ++ u) ++ [10]) = ((n0 :: nr) ++ [32, 61, 32] ++ u) ++ [10] := by
    have h9 : isspace 9 = true := by decide
    unfold skipWs
    simp [h9, hn0.1]
  have hnz : (0 : UInt8) ∉ ((n0 :: nr) ++ [32, 61, 32] ++ u) ++ [10] := by
    intro h
    simp only [List.mem_append] at h
    rcases h with ((h | h) | h) | h
    · exact (keychar_not 0 (hkey 0 h)).2.1 rfl
    · simp at h
    · exact hr.nonul h
    · simp at h
  have hstr : (stripComments (lineStr ((9 :: (n0 :: nr) ++ [32, 61, 32] ++ u) ++ [10])) 0).1 = (n0 :: nr) ++ [32, 61, 32] ++ u := by
    unfold lineStr
    rw [hws, cstr_noz _ hnz, strip_snoc]
    unfold stripComments
    have : (stripLoop none 0 0 ((n0 :: nr) ++ [32, 61, 32] ++ u)).1 = (n0 :: nr) ++ [32, 61, 32] ++ u := by
      rw [stripLoop_prefix ((n0 :: nr) ++ [32, 61, 32])]
      · have hg : (n0 :: nr ++ [32, 61, 32]).getLast? = some 32 := by simp [List.getLast?_cons]
        rw [hg, hr.strip]
      · intro x hx
        rcases List.mem_append.1 hx with h | h
        · have := keychar_not x (hkey x h)
          exact ⟨this.2.2.2.2.1, this.2.2.2.2.2.1, this.2.2.1, this.2.2.2.1⟩
        · simp at h; rcases h with rfl | rfl | rfl <;> decide
      · simp
    simp only [this]
    rcases getLast_cases u with rfl | ⟨i, a, rfl⟩
    · exact absurd rfl hr.ne
    · rw [← List.append_assoc]
      exact rtrim_keep _ _ (hr.last a (by simp))
  have htw : ((n0 :: nr) ++ [32, 61, 32] ++ u).takeWhile keychar = n0 :: nr := by
    rw [List.append_assoc]
    exact takeWhile_append_stop _ _ _ hkey (by intro x hx; simp at hx; subst hx; decide)
  have hdw : ((n0 :: nr) ++ [32, 61, 32] ++ u).dropWhile keychar = [32, 61, 32] ++ u := by
    rw [List.append_assoc]
    exact dropWhile_append_stop _ _ _ hkey (by intro x hx; simp at hx; subst hx; decide)
  have hpn : parseName ((n0 :: nr) ++ [32, 61, 32] ++ u) = .ok (n0 :: nr, some (32 :: u)) := by
    unfold parseName
    rw [htw, hdw, if_neg (by simp)]
    rfl
  have hdu : (32 :: u).dropWhile isspace = u := by
    rw [List.dropWhile_cons_of_pos (by decide)]
    cases u with
    | nil => rfl
    | cons a b => rw [List.dropWhile_cons_of_neg]; simp [hr.head a rfl]
  have hpv : ∀ q, parseValue q (some (32 :: u)) T = .ok (some v, T, false) := by
    intro q
    unfold parseValue
    simp only [hdu, hr.read]
    rfl
  have hvar : parseVariable ((9 :: (n0 :: nr) ++ [32, 61, 32] ++ u) ++ [10]) T = .ok ⟨n0 :: nr, some v, T, false⟩ := by
    unfold parseVariable
    rw [hstr, hpn]; simp only
    rw [hpv]
  rw [parseLine_succ, hfirst]
  have hc1 : n0 ≠ 91 := hn0.2.2.2.2.2.2.2.2.1
  have hc2 : ¬(n0 = 10 ∨ n0 = 13 ∨ n0 = 32 ∨ n0 = 9 ∨ n0 = 59 ∨ n0 = 35) := by
    rintro (h | h | h | h | h | h)
    · exact hn0.2.2.2.2.2.2.2.2.2.2.1 h
    · exact hn0.2.2.2.2.2.2.2.2.2.2.2.1 h
    · exact hn0.2.2.2.2.2.2.2.2.2.2.2.2.2 h
    · exact hn0.2.2.2.2.2.2.2.2.2.2.2.2.1 h
    · exact hn0.2.2.2.2.1 h
    · exact hn0.2.2.2.2.2.1 h
  simp only [hc1, hc2, if_false, varLine, List.nil_append, hvar]
  exact ⟨_, rfl, rfl⟩

/-! ### headers -/

theorem secLoop_key (n t acc : Bytes) (hn : ∀ x ∈ n, keychar x = true) (hne : n ≠ []) :
    secLoop (n ++ 93 :: t) acc = .ok (acc ++ n.map toLower, t) := by
  induction n generalizing acc with
  | nil => exact absurd rfl hne
  | cons c r ih =>
    have hc := keychar_not c (hn c (by simp))
    rw [List.cons_append, secLoop]
    simp only [hc.1, hn c (by simp), Bool.false_eq_true, if_false, Bool.not_true, Bool.false_and]
    by_cases hr : r = []
    · subst hr; simp
    · have : (r ++ 93 :: t).head? ≠ some 93 := by
        cases r with
        | nil => exact absurd rfl hr
        | cons d e =>
          have := (keychar_not d (hn d (by simp))).2.2.2.2.2.2.2.2.2.1
          simpa using this
      rw [if_neg this, ih _ (fun x hx => hn x (by simp [hx])) hr]
      simp

theorem secLoop_space (n t acc : Bytes) (hn : ∀ x ∈ n, keychar x = true) :
    secLoop (n ++ 32 :: t) acc = parseSub (acc ++ n.map toLower) t := by
  induction n generalizing acc with
  | nil =>
    have : isspace 32 = true := by decide
    simp [secLoop, this]
  | cons c r ih =>
    have hc := keychar_not c (hn c (by simp))
    rw [List.cons_append, secLoop]
    simp only [hc.1, hn c (by simp), Bool.false_eq_true, if_false, Bool.not_true, Bool.false_and]
    have : (r ++ 32 :: t).head? ≠ some 93 := by
      cases r with
      | nil => simp
      | cons d e =>
        have := (keychar_not d (hn d (by simp))).2.2.2.2.2.2.2.2.2.1
        simpa using this
    rw [if_neg this, ih _ (fun x hx => hn x (by simp [hx]))]
    simp

theorem subLoop_escape (sub t : Bytes) (hs : ∀ x ∈ sub, x ≠ 10 ∧ x ≠ 9 ∧ x ≠ 8) : ∀ acc,
    subLoop (escapeValue sub ++ 34 :: 93 :: t) acc = .ok (acc ++ sub, t) := by
  induction sub with
  | nil =>
    intro acc
    rw [show escapeValue [] = [] from rfl, List.nil_append, subLoop_quote]; simp [endSub]
  | cons c r ih =>
    intro acc
    have hr := ih (fun x hx => hs x (by simp [hx]))
    have hif : ∀ a, (if 34 ∈ (escapeValue r ++ 34 :: 93 :: t).tail then subLoop (escapeValue r ++ 34 :: 93 :: t) a
        else endSub (escapeValue r ++ 34 :: 93 :: t) a) = .ok (a ++ r, t) := by
      intro a
      cases he : escapeValue r with
      | nil =>
        have hr0 : r = [] := (escapeValue_nil r).1 he
        subst hr0
        rw [List.nil_append]
        by_cases hm : (34 : UInt8) ∈ (34 :: 93 :: t).tail
        · rw [if_pos hm, subLoop_quote]; simp [endSub]
        · rw [if_neg hm]; simp [endSub]
      | cons x y =>
        rw [if_pos (by simp), ← he, hr]
    rw [escapeValue_cons, List.append_assoc]
    rcases escapeOf_cases c with ⟨hc, h1, h2, h3, h4, h5⟩ | ⟨e, hc, _, _, _, _, hec⟩
    · rw [hc, List.singleton_append, subLoop_char _ _ _ h4 h5, hif]; simp
    · have := hs c (by simp)
      have hec := hec this.1 this.2.1 this.2.2
      subst hec
      rw [hc]
      simp only [List.cons_append, List.nil_append]
      rw [subLoop_bs, hif]; simp

/-- the parts of a valid name -/
def Parts (s key pre nm : Bytes) (sub : Option Bytes) : Prop :=
  sectionOk pre = true ∧ sectionOk nm = true ∧
    match sub with
    | none => s = pre ++ 46 :: nm ∧ key = pre.map toLower ++ 46 :: nm.map toLower
    | some x => (10 : UInt8) ∉ x ∧ s = pre ++ 46 :: x ++ 46 :: nm ∧ key = pre.map toLower ++ 46 :: x ++ 46 :: nm.map toLower

theorem namePart_dot (a n : Bytes) (h : ∀ x ∈ n, x ≠ 46) : namePart (a ++ 46 :: n) = n := by
  unfold namePart
  rw [List.reverse_append, List.reverse_cons, List.append_assoc, takeWhile_append_stop]
  · simp
  · intro x hx; have := h x (by simpa using hx); simpa using this
  · intro x hx; simp at hx; subst hx; decide

theorem sectionPart_dot (a n : Bytes) (h : ∀ x ∈ n, x ≠ 46) : sectionPart (a ++ 46 :: n) = a := by
  unfold sectionPart
  rw [List.reverse_append, List.reverse_cons, List.append_assoc, dropWhile_append_stop]
  · simp
  · intro x hx; have := h x (by simpa using hx); simpa using this
  · intro x hx; simp at hx; subst hx; decide

theorem split_first (s : Bytes) (h : (46 : UInt8) ∈ s) : s = s.takeWhile (· ≠ 46) ++ 46 :: (s.dropWhile (· ≠ 46)).drop 1 := by
  induction s with
  | nil => simp at h
  | cons c r ih =>
    by_cases hc : c = 46
    · subst hc; simp
    · have := ih (by simpa [Ne.symm hc] using h)
      rw [List.takeWhile_cons_of_pos (by simpa using hc), List.dropWhile_cons_of_pos (by simpa using hc)]
      rw [List.cons_append, ← this]

theorem namePart_suffix (s : Bytes) : s = s.take (s.length - (namePart s).length) ++ namePart s := by
  have h : namePart s <:+ s := by
    unfold namePart
    have h := List.takeWhile_prefix (· ≠ (46 : UInt8)) (l := s.reverse)
    have h2 := List.reverse_suffix.2 h
    simpa using h2
  obtain ⟨i, hi⟩ := h
  have : s.length - (namePart s).length = i.length := by
    have := congrArg List.length hi; simp at this; omega
  rw [this]
  conv => lhs; rw [← hi]
  congr 1
  rw [← hi]; simp

theorem split_last (s : Bytes) (h : (46 : UInt8) ∈ s) : ∃ a, s = a ++ 46 :: namePart s ∧ ∀ x ∈ namePart s, x ≠ 46 := by
  have h' : (46 : UInt8) ∈ s.reverse := by simpa using h
  have := split_first s.reverse h'
  refine ⟨((s.reverse.dropWhile (· ≠ 46)).drop 1).reverse, ?_, ?_⟩
  · have := congrArg List.reverse this
    rw [List.reverse_reverse] at this
    conv => lhs; rw [this]
    simp [namePart]
  · intro x hx
    unfold namePart at hx
    rw [List.mem_reverse] at hx
    have := takeWhile_all _ _ x hx
    simpa using this

theorem normalize_parts (s key : Bytes) (h : normalizeName s = .ok key) : ∃ pre nm sub, Parts s key pre nm sub := by
  unfold normalizeName at h
  simp only at h
  by_cases h1 : (46 : UInt8) ∉ s
  · rw [if_pos h1] at h; cases h
  rw [if_neg h1] at h
  have h1 : (46 : UInt8) ∈ s := by simpa using h1
  by_cases h2 : ¬sectionOk (s.takeWhile (· ≠ 46)) = true ∨ ¬sectionOk (namePart s) = true
  · rw [if_pos h2] at h; cases h
  rw [if_neg h2] at h
  have hpre : sectionOk (s.takeWhile (· ≠ 46)) = true := by
    cases hh : sectionOk (s.takeWhile (· ≠ 46)) with
    | true => rfl
    | false => exact absurd (Or.inl (by rw [hh]; simp)) h2
  have hnm : sectionOk (namePart s) = true := by
    cases hh : sectionOk (namePart s) with
    | true => rfl
    | false => exact absurd (Or.inr (by rw [hh]; simp)) h2
  have hs := split_first s h1
  obtain ⟨a, ha, hnodot⟩ := split_last s h1
  generalize hp : s.takeWhile (· ≠ 46) = pre at *
  generalize hn : namePart s = nm at *
  generalize (s.dropWhile (· ≠ 46)).drop 1 = rest at hs
  have hpdot : ∀ x ∈ pre, x ≠ 46 := by
    intro x hx; rw [← hp] at hx; have := takeWhile_all _ _ x hx; simpa using this
  -- is there a second dot?
  have hcase : (rest = nm) ∨ ∃ x, rest = x ++ 46 :: nm := by
    have he : pre ++ 46 :: rest = a ++ 46 :: nm := by rw [← hs, ← ha]
    rcases List.append_eq_append_iff.1 he with ⟨c, h3, h4⟩ | ⟨c, h3, h4⟩
    · cases c with
      | nil => simp at h4; exact Or.inl h4
      | cons y c =>
        simp at h4
        exact Or.inr ⟨c, h4.2⟩
    · cases c with
      | nil => simp at h4; exact Or.inl h4.symm
      | cons y c =>
        simp at h4
        have : (46 : UInt8) ∈ pre := by rw [h3]; simp [← h4.1]
        exact absurd rfl (hpdot 46 this)
  rcases hcase with rfl | ⟨x, rfl⟩
  · refine ⟨pre, rest, none, hpre, hnm, hs, ?_⟩
    by_cases h3 : (10 : UInt8) ∈ (s.drop pre.length).take (s.length - pre.length - rest.length)
    · rw [if_pos h3] at h; cases h
    rw [if_neg h3] at h
    have hmid : (s.drop pre.length).take (s.length - pre.length - rest.length) = [46] := by
      rw [hs]
      have : (pre ++ 46 :: rest).length - pre.length - rest.length = 1 := by simp
      rw [this]; simp
    rw [hmid] at h
    rw [← Res.ok.inj h]; simp
  · refine ⟨pre, nm, some x, hpre, hnm, ?_, by rw [hs]; simp, ?_⟩ <;>
    · by_cases h3 : (10 : UInt8) ∈ (s.drop pre.length).take (s.length - pre.length - nm.length)
      · rw [if_pos h3] at h; cases h
      rw [if_neg h3] at h
      have hmid : (s.drop pre.length).take (s.length - pre.length - nm.length) = 46 :: x ++ [46] := by
        rw [hs]
        have : (pre ++ 46 :: (x ++ 46 :: nm)).length - pre.length - nm.length = (46 :: x ++ [46]).length := by simp; omega
        rw [this, List.drop_left]
        have h5 : 46 :: (x ++ 46 :: nm) = (46 :: x ++ [46]) ++ nm := by simp
        rw [h5, List.take_left]
      rw [hmid] at h h3
      first
        | (intro e; exact h3 (by simp [e]))
        | (rw [← Res.ok.inj h]; simp)

theorem header_of (l name : Bytes) (hl : ∀ x ∈ l, x ≠ 0) (h0 : l.head? = some 91) (hb : (93 : UInt8) ∈ l) (hp : secLoop l.tail [] = .ok (name, [10])) :
    parseHeader l = .ok (name, l.drop (l.length - 1)) := by
  have hws : skipWs l = l := by
    cases l with
    | nil => rfl
    | cons c r =>
      simp at h0; subst h0
      have : isspace 91 = false := by decide
      simp [skipWs, this]
  have hz : (0 : UInt8) ∉ l := fun h => hl 0 h rfl
  unfold parseHeader lineStr
  rw [hws, cstr_noz _ hz]
  have : parseHeaderStr l = .ok (name, [10]) := by
    unfold parseHeaderStr
    rw [if_neg (by simpa using hb)]
    cases l with
    | nil => simp at h0
    | cons c r => simp at h0; subst h0; simpa using hp
  rw [this]; rfl

/-- a header line the writer makes up -/
theorem good_header (b name : Bytes) (c : Option Bytes) (hb : ∀ x ∈ b, x ≠ 10) (hz : ∀ x ∈ b, x ≠ 0) (h0 : b.head? = some 91)
    (h93 : (93 : UInt8) ∈ b) (hp : secLoop (b ++ [10]).tail [] = .ok (name, [10])) : Good (b ++ [10]) c [] (some name) := by
  have hne : b ≠ [] := by intro e; subst e; simp at h0
  have hh : parseHeader (b ++ [10]) = .ok (name, [10]) := by
    rw [header_of (b ++ [10]) name _ _ _ hp]
    · simp
    · intro x hx; rcases List.mem_append.1 hx with h | h
      · exact hz x h
      · simp at h; subst h; decide
    · cases b with | nil => exact absurd rfl hne | cons x y => simpa using h0
    · simp [h93]
  have hf : firstChar (b ++ [10]) = some 91 := by
    cases b with
    | nil => exact absurd rfl hne
    | cons x y =>
      simp at h0; subst h0
      have : isspace 91 = false := by decide
      simp [firstChar, this]
  refine good_of_line (b := b) (b2 := []) hb rfl ?_
  intro T
  refine ⟨[.sect name (b ++ [10]) false], ?_, rfl⟩
  rw [parseLine_succ, hf]
  simp only [if_true, hh]
  have : (List.any ([10] : Bytes) fun c => !isspace c) = false := by decide
  simp [this]

theorem keychar_lower (x : UInt8) (h : keychar x = true) : toLower x ≠ 46 ∧ toLower x ≠ 0 := by
  revert x h; decide +kernel

/-- the header written for a valid name -/
theorem good_section {s key pre nm : Bytes} {sub : Option Bytes} (h : Parts s key pre nm sub) (hs : Name s) (c : Option Bytes) :
    Good (sectionLine (sectionPart s)) c [] (some (sectionPart key)) := by
  obtain ⟨hpre, hnm, h⟩ := h
  obtain ⟨hne, hk⟩ := sectionOk_keychar pre hpre
  obtain ⟨_, hnk⟩ := sectionOk_keychar nm hnm
  have hpd : ∀ x ∈ pre, x ≠ 46 := fun x hx => (keychar_not x (hk x hx)).2.2.2.2.2.2.2.1
  have hnd : ∀ x ∈ nm, x ≠ 46 := fun x hx => (keychar_not x (hnk x hx)).2.2.2.2.2.2.2.1
  have hnd' : ∀ x ∈ nm.map toLower, x ≠ 46 := by
    intro x hx
    obtain ⟨y, hy, rfl⟩ := List.mem_map.1 hx
    exact (keychar_lower y (hnk y hy)).1
  have hlow : ∀ x ∈ pre, toLower x ≠ 0 := by
    intro x hx; exact (keychar_lower x (hk x hx)).2
  have hpnl : ∀ x ∈ pre, x ≠ 10 ∧ x ≠ 0 := fun x hx => ⟨(keychar_not x (hk x hx)).2.2.2.2.2.2.2.2.2.2.1, (keychar_not x (hk x hx)).2.1⟩
  cases sub with
  | none =>
    obtain ⟨rfl, rfl⟩ := h
    rw [sectionPart_dot _ _ hnd, sectionPart_dot _ _ hnd']
    have hl : sectionLine pre = (91 :: pre ++ [93]) ++ [10] := by
      unfold sectionLine
      rw [if_pos (fun h => hpd 46 h rfl)]
      simp
    rw [hl]
    apply good_header
    · intro x hx
      simp at hx
      rcases hx with rfl | h | rfl
      · decide
      · exact (hpnl x h).1
      · decide
    · intro x hx
      simp at hx
      rcases hx with rfl | h | rfl
      · decide
      · exact (hpnl x h).2
      · decide
    · rfl
    · simp
    · have := secLoop_key pre [10] [] hk hne
      simpa using this
  | some x =>
    obtain ⟨hx10, rfl, rfl⟩ := h
    rw [sectionPart_dot _ _ hnd, sectionPart_dot _ _ hnd']
    have hx : ∀ y ∈ x, y ≠ 10 ∧ y ≠ 9 ∧ y ≠ 8 := by
      intro y hy
      refine ⟨fun e => hx10 (e ▸ hy), ?_, ?_⟩
      · rintro rfl; exact hs.2.1 (by simp [hy])
      · rintro rfl; exact hs.2.2 (by simp [hy])
    have hx0 : (0 : UInt8) ∉ x := fun h => hs.1 (by simp [h])
    have htw : (pre ++ 46 :: x).takeWhile (· ≠ 46) = pre :=
      takeWhile_append_stop _ _ _ (fun y hy => by simpa using hpd y hy) (by intro y hy; simp at hy; subst hy; decide)
    have hdw : (pre ++ 46 :: x).dropWhile (· ≠ 46) = 46 :: x :=
      dropWhile_append_stop _ _ _ (fun y hy => by simpa using hpd y hy) (by intro y hy; simp at hy; subst hy; decide)
    have hl : sectionLine (pre ++ 46 :: x) = (91 :: pre ++ 32 :: 34 :: escapeValue x ++ [34, 93]) ++ [10] := by
      unfold sectionLine
      rw [if_neg (by simp), htw, hdw]
      simp
    rw [hl]
    apply good_header
    · intro y hy
      simp only [List.cons_append, List.append_assoc, List.mem_cons, List.mem_append, List.not_mem_nil, or_false] at hy
      rcases hy with rfl | h | rfl | rfl | h | rfl | rfl <;> try decide
      · exact (hpnl y h).1
      · rintro rfl; exact (escapeValue_no x 10 (by decide) (by decide) (by decide) (by decide) (by decide) h).2 rfl
    · intro y hy
      simp only [List.cons_append, List.append_assoc, List.mem_cons, List.mem_append, List.not_mem_nil, or_false] at hy
      rcases hy with rfl | h | rfl | rfl | h | rfl | rfl <;> try decide
      · exact (hpnl y h).2
      · rintro rfl; exact hx0 (escapeValue_no x 0 (by decide) (by decide) (by decide) (by decide) (by decide) h).1
    · rfl
    · simp
    · have e : ((91 :: pre ++ 32 :: 34 :: escapeValue x ++ [34, 93]) ++ [10]).tail = pre ++ 32 :: (34 :: (escapeValue x ++ 34 :: 93 :: [10])) := by simp
      rw [e, secLoop_space _ _ _ hk]
      unfold parseSub
      have : isspace 34 = false := by decide
      simp only [List.nil_append, List.dropWhile_cons, this, Bool.false_eq_true, if_false]
      rw [if_neg (by simp), if_neg (by simp), subLoop_escape _ _ hx]
      simp

end Verif.ConfigFile
