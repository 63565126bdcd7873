import Verif.Quote.Model
import Verif.Quote.Spec
namespace Verif.Quote
open Spec

/-! ### quoting -/

theorem special_iff (c : UInt8) : special c = true ↔ MustQuote c := by
  revert c; decide +kernel

theorem quoteByte_eq (c : UInt8) : quoteByte c = written c := by
  revert c; decide +kernel

theorem written_plain (c : UInt8) : ¬ MustQuote c → written c = [c] := by
  revert c; decide +kernel

theorem firstSpecial_none (b : Bytes) : firstSpecial b = none ↔ ∀ c ∈ b, ¬ MustQuote c := by
  induction b with
  | nil => simp [firstSpecial]
  | cons c cs ih =>
    rw [firstSpecial]
    by_cases h : special c = true
    · simp [h, (special_iff c).mp h]
    · have : ¬ MustQuote c := fun hh => h ((special_iff c).mpr hh)
      simp [h, this, ih]

theorem firstSpecial_some (b : Bytes) (i : Nat) (h : firstSpecial b = some i) : ∀ c ∈ b.take i, ¬ MustQuote c := by
  induction b generalizing i with
  | nil => simp [firstSpecial] at h
  | cons c cs ih =>
    rw [firstSpecial] at h
    by_cases hs : special c = true
    · simp [hs] at h; subst h; simp
    · have hn : ¬ MustQuote c := fun hh => hs ((special_iff c).mpr hh)
      simp [hs] at h
      obtain ⟨k, hk, rfl⟩ := h
      intro d hd
      rw [List.take_succ_cons, List.mem_cons] at hd
      rcases hd with rfl | hd
      · exact hn
      · exact ih k hk d hd

theorem flatMap_plain (b : Bytes) (h : ∀ c ∈ b, ¬ MustQuote c) : b.flatMap written = b := by
  induction b with
  | nil => rfl
  | cons c cs ih =>
    rw [List.flatMap_cons, written_plain c (h c (by simp)), ih (fun d hd => h d (by simp [hd]))]
    rfl

/-- **C50.** What `git_str_quote` does to every byte string: it is left alone when it does not begin with an exclamation mark and has no
quote, backslash, control character or byte above 126; otherwise it is put between quotes with each such byte as an escape sequence. -/
theorem C50_quote (b : Bytes) :
    quote b = if b.head? ≠ some c!"!" ∧ ∀ c ∈ b, ¬ MustQuote c then b else b!"\"" ++ b.flatMap written ++ b!"\"" := by
  unfold quote
  have hq : quoteByte = written := funext quoteByte_eq
  by_cases h1 : b.head? = some c!"!"
  · rw [if_pos h1, if_neg (by simp [h1])]
    simp [hq]
  · rw [if_neg h1]
    cases hf : firstSpecial b with
    | none =>
      have := (firstSpecial_none b).mp hf
      rw [if_pos ⟨h1, this⟩]
    | some i =>
      have : ¬ ∀ c ∈ b, ¬ MustQuote c := fun h => by rw [(firstSpecial_none b).mpr h] at hf; exact absurd hf (by simp)
      rw [if_neg (fun h => this h.2)]
      dsimp only
      have ht := flatMap_plain _ (firstSpecial_some b i hf)
      conv => rhs; rw [← List.take_append_drop i b, List.flatMap_append, ht]
      simp [hq]

/-! ### unquoting -/

/-- decoding, as a function -/
def dec : Bytes → Option Bytes
  | [] => some []
  | c :: r =>
    if c ≠ c!"\\" then (dec r).map (c :: ·)
    else match r with
      | [] => none
      | e :: r' => match simple e with
        | some ch => (dec r').map (ch :: ·)
        | none =>
          if e = c!"0" ∨ e = c!"1" ∨ e = c!"2" ∨ e = c!"3" then
            match r' with
            | x :: y :: r'' =>
              if Octal x ∧ Octal y then (dec r'').map ((((e - c!"0") <<< 6) ||| ((x - c!"0") <<< 3) ||| (y - c!"0")) :: ·) else none
            | _ => none
          else none

theorem simple_iff (e c : UInt8) : simple e = some c ↔ (e, c) ∈ letters := by
  constructor
  · intro h
    unfold simple at h
    repeat' (first | (split at h; (rename_i he; simp at h; subst h; (first | (rcases he with rfl | rfl <;> decide) | (subst he; decide)))) | skip)
    simp at h
  · intro h
    simp only [letters, List.mem_cons, Prod.mk.injEq, List.not_mem_nil, or_false] at h
    rcases h with ⟨rfl, rfl⟩ | ⟨rfl, rfl⟩ | ⟨rfl, rfl⟩ | ⟨rfl, rfl⟩ | ⟨rfl, rfl⟩ | ⟨rfl, rfl⟩ | ⟨rfl, rfl⟩ | ⟨rfl, rfl⟩ | ⟨rfl, rfl⟩ <;> decide

theorem oct_split (c : UInt8) (h : Octal c) : c ∈ b!"01234567" := by
  revert c; decide +kernel

theorem oct_val (a x y : UInt8) (ha : a = c!"0" ∨ a = c!"1" ∨ a = c!"2" ∨ a = c!"3") (hx : Octal x) (hy : Octal y) :
    ((a - c!"0") <<< 6) ||| ((x - c!"0") <<< 3) ||| (y - c!"0") = UInt8.ofNat (val a * 64 + val x * 8 + val y) := by
  have hx := oct_split x hx
  have hy := oct_split y hy
  have ha : a ∈ b!"0123" := by simpa using ha
  revert y
  revert x
  revert a
  decide +kernel

theorem oct_first (a : UInt8) : (a = c!"0" ∨ a = c!"1" ∨ a = c!"2" ∨ a = c!"3") ↔ (Octal a ∧ val a ≤ 3) := by
  revert a; decide +kernel

theorem oct_not_simple (a : UInt8) : Octal a → simple a = none := by
  revert a; decide +kernel

theorem dec_plain (c : UInt8) (r : Bytes) (h : c ≠ c!"\\") : dec (c :: r) = (dec r).map (c :: ·) := by
  rw [dec.eq_def]; simp [h]

theorem dec_letter (e ch : UInt8) (r : Bytes) (h : simple e = some ch) : dec (c!"\\" :: e :: r) = (dec r).map (ch :: ·) := by
  rw [dec.eq_def]; simp [h]

theorem dec_none (e : UInt8) (r : Bytes) (h : simple e = none) (he : ¬ (e = c!"0" ∨ e = c!"1" ∨ e = c!"2" ∨ e = c!"3")) :
    dec (c!"\\" :: e :: r) = none := by
  rw [dec.eq_def]; simp only [h, if_neg he, ne_eq, not_true, if_false]

theorem dec_oct (e x y : UInt8) (r : Bytes) (h : simple e = none) (he : e = c!"0" ∨ e = c!"1" ∨ e = c!"2" ∨ e = c!"3") :
    dec (c!"\\" :: e :: x :: y :: r) =
      if Octal x ∧ Octal y then (dec r).map ((((e - c!"0") <<< 6) ||| ((x - c!"0") <<< 3) ||| (y - c!"0")) :: ·) else none := by
  rw [dec.eq_def]; simp only [h, if_pos he, ne_eq, not_true, if_false]

theorem dec_short (e : UInt8) (r : Bytes) (h : simple e = none) (hr : r.length < 2) : dec (c!"\\" :: e :: r) = none := by
  rw [dec.eq_def]; simp only [h, ne_eq, not_true, if_false]
  split
  · match r, hr with
    | [], _ => rfl
    | [_], _ => rfl
  · rfl

theorem dec_iff (r t : Bytes) : dec r = some t ↔ Decodes r t := by
  constructor
  · intro h
    induction r using dec.induct generalizing t with
    | case1 => simp [dec] at h; subst h; exact .nil
    | case2 c r hc ih =>
      rw [dec.eq_def] at h; simp [hc] at h
      obtain ⟨u, hu, rfl⟩ := h
      exact .plain c hc (ih u hu)
    | case3 c hc => rw [dec.eq_def] at h; simp at hc; simp [hc] at h
    | case4 c hc e r' ch hs ih =>
      simp at hc; subst hc
      rw [dec.eq_def] at h; simp [hs] at h
      obtain ⟨u, hu, rfl⟩ := h
      exact .letter e ch ((simple_iff e ch).mp hs) (ih u hu)
    | case5 c hc e hs he x y r'' ho ih =>
      simp at hc; subst hc
      rw [dec_oct e x y r'' hs he, if_pos ho, Option.map_eq_some_iff] at h
      obtain ⟨u, hu, rfl⟩ := h
      rw [oct_val e x y he ho.1 ho.2]
      have := (oct_first e).mp he
      exact .octal e x y this.1 ho.1 ho.2 this.2 (ih u hu)
    | case6 c hc e hs he x y r'' ho =>
      simp at hc; subst hc
      rw [dec_oct e x y r'' hs he, if_neg ho] at h; cases h
    | case7 c hc e r' hs he hn =>
      simp at hc; subst hc
      rw [dec_short e r' hs] at h
      · cases h
      · match r', hn with
        | [], _ => simp
        | [_], _ => simp
        | x :: y :: r, hn => exact absurd rfl (hn x y r)
    | case8 c hc e r' hs he =>
      simp at hc; subst hc
      rw [dec_none e r' hs he] at h; cases h
  · intro h
    induction h with
    | nil => rfl
    | plain c hc _ ih => rw [dec.eq_def]; simp [hc, ih]
    | letter e c hl _ ih => rw [dec.eq_def]; simp [(simple_iff e c).mpr hl, ih]
    | octal x y z hx hy hz h3 _ ih =>
      have he := (oct_first x).mpr ⟨hx, h3⟩
      rw [dec.eq_def]
      simp only [ne_eq, not_true, if_false, oct_not_simple x hx, if_pos he, if_pos (And.intro hy hz), ih, Option.map_some, oct_val x y z he hy hz]

theorem at_lt (b : Bytes) (pre : Bytes) (c : UInt8) (post : Bytes) (h : b = pre ++ c :: post) : at' b pre.length = .ok c := by
  subst h
  unfold at'
  rw [if_pos (by simp)]
  simp

def out (o : Bytes) : Option Bytes → Res Bytes
  | some t => .ok (o ++ t)
  | none => .err (-1)

theorem not_octal (d : UInt8) : (d < c!"0" ∨ d > c!"7") ↔ ¬ Octal d := by
  revert d; decide +kernel

theorem unquoteLoop_eq (fuel : Nat) (pre r : Bytes) (o : Bytes) (b : Bytes) (hp : pre ≠ []) (hb : b = pre ++ r ++ [c!"\""]) (hf : r.length < fuel) :
    unquoteLoop b fuel pre.length o = out o (dec r) := by
  induction fuel generalizing pre r o with
  | zero => omega
  | succ fuel ih =>
    rw [unquoteLoop]
    have hbl : b.length = pre.length + r.length + 1 := by rw [hb]; simp; omega
    have hpl : 0 < pre.length := List.length_pos_iff.mpr hp
    cases r with
    | nil =>
      rw [if_neg (by simp at hbl; omega)]
      simp [dec, out]
    | cons c r =>
      simp only [List.length_cons] at hbl hf
      rw [if_pos (by omega), at_lt b pre c (r ++ [c!"\""]) (by rw [hb]; simp)]
      simp only [Res.bind_ok]
      by_cases hc : c = c!"\\"
      · subst hc
        rw [if_pos rfl]
        cases r with
        | nil =>
          rw [if_pos (by simp at hbl; omega)]
          rw [dec.eq_def]; rfl
        | cons e r =>
          simp only [List.length_cons] at hbl hf
          rw [if_neg (by omega), show at' b (pre.length + 1) = .ok e by simpa using at_lt b (pre ++ [c!"\\"]) e (r ++ [c!"\""]) (by rw [hb]; simp)]
          simp only [Res.bind_ok]
          cases hs : simple e with
          | some ch =>
            have := ih (pre ++ [c!"\\", e]) r (o ++ [ch]) (by simp) (by rw [hb]; simp) (by omega)
            simp only [List.length_append, List.length_cons, List.length_nil] at this
            simp only [this]
            rw [dec_letter e ch r hs]
            cases dec r <;> simp [out]
          | none =>
            simp only
            by_cases he : e = c!"0" ∨ e = c!"1" ∨ e = c!"2" ∨ e = c!"3"
            · rw [if_pos he]
              match r with
              | [] =>
                simp only [List.length_nil] at hbl hf
                rw [if_neg (by omega), show at' b (pre.length + 2) = .ok c!"\"" by simpa using at_lt b (pre ++ [c!"\\", e]) c!"\"" [] hb]
                rw [dec_short e [] hs (by simp)]; rfl
              | [x] =>
                simp only [List.length_cons, List.length_nil] at hbl hf
                rw [if_pos (by omega), dec_short e [x] hs (by simp)]; rfl
              | x :: y :: r =>
                simp only [List.length_cons] at hbl hf
                rw [dec_oct e x y r hs he, if_neg (by omega), show at' b (pre.length + 2) = .ok x by simpa using at_lt b (pre ++ [c!"\\", e]) x (y :: r ++ [c!"\""]) (by rw [hb]; simp)]
                simp only [Res.bind_ok]
                by_cases hx : Octal x
                · rw [if_neg (by rw [not_octal]; simpa using hx),
                    show at' b (pre.length + 3) = .ok y by simpa using at_lt b (pre ++ [c!"\\", e, x]) y (r ++ [c!"\""]) (by rw [hb]; simp)]
                  simp only [Res.bind_ok]
                  by_cases hy : Octal y
                  · rw [if_neg (by rw [not_octal]; simpa using hy), if_pos ⟨hx, hy⟩]
                    have := ih (pre ++ [c!"\\", e, x, y]) r (o ++ [((e - c!"0") <<< 6) ||| ((x - c!"0") <<< 3) ||| (y - c!"0")]) (by simp) (by rw [hb]; simp) (by omega)
                    simp only [List.length_append, List.length_cons, List.length_nil] at this
                    simp only [this]
                    cases dec r <;> simp [out]
                  · rw [if_pos (by rw [not_octal]; exact hy), if_neg (fun h => hy h.2)]; rfl
                · rw [if_pos (by rw [not_octal]; exact hx), if_neg (fun h => hx h.1)]; rfl
            · rw [if_neg he, dec_none e r hs he]; rfl
      · rw [if_neg hc]
        have := ih (pre ++ [c]) r (o ++ [c]) (by simp) (by rw [hb]; simp) (by omega)
        simp only [List.length_append, List.length_cons, List.length_nil] at this
        simp only [this]
        rw [dec_plain c r hc]
        cases dec r <;> simp [out]

theorem isSpace_iff (c : UInt8) : Strtol.isSpace c = true ↔ Space c := by revert c; decide +kernel

theorem size_append (b : Bytes) (t : Bytes) (n : Nat) (h : n ≤ b.length) : rtrim.size (b ++ t) n = rtrim.size b n := by
  induction n with
  | zero => rfl
  | succ n ih =>
    rw [rtrim.size, rtrim.size, List.getElem?_append_left (by omega), ih (by omega)]

theorem rtrim_snoc (b : Bytes) (c : UInt8) : rtrim (b ++ [c]) = if Space c then rtrim b else b ++ [c] := by
  unfold rtrim
  rw [List.length_append, List.length_singleton, rtrim.size]
  simp only [List.getElem?_append_right (Nat.le_refl _), Nat.sub_self, List.getElem?_cons_zero]
  by_cases h : Space c
  · rw [if_pos ((isSpace_iff c).mpr h), if_pos h, size_append _ _ _ (Nat.le_refl _)]
    have : rtrim.size b b.length ≤ b.length := by
      generalize hn : b.length = n
      have : ∀ n ≤ b.length, rtrim.size b n ≤ n := by
        intro n hn
        induction n with
        | zero => simp [rtrim.size]
        | succ n ih =>
          rw [rtrim.size]
          split
          · split
            · have := ih (by omega); omega
            · omega
          · omega
      exact this n (by omega)
    rw [List.take_append_of_le_length this]
  · rw [if_neg (fun hh => h ((isSpace_iff c).mp hh)), if_neg h, List.take_of_length_le (by simp)]

/-- trailing white space is what is cut -/
theorem rtrim_split (b : Bytes) : ∃ ws, b = rtrim b ++ ws ∧ (∀ c ∈ ws, Space c) ∧ ∀ c, (rtrim b).getLast? = some c → ¬ Space c := by
  induction b using list_snoc_induction with
  | hnil => exact ⟨[], rfl, by simp, by simp [rtrim]⟩
  | hsnoc b c ih =>
    rw [rtrim_snoc]
    by_cases h : Space c
    · rw [if_pos h]
      obtain ⟨ws, h1, h2, h3⟩ := ih
      refine ⟨ws ++ [c], by rw [← List.append_assoc, ← h1], ?_, h3⟩
      intro d hd
      rcases List.mem_append.mp hd with hd | hd
      · exact h2 d hd
      · simp at hd; subst hd; exact h
    · rw [if_neg h]
      exact ⟨[], by simp, by simp, by intro d hd; simp at hd; subst hd; exact h⟩

theorem rtrim_of (b ws : Bytes) (c : UInt8) (hc : ¬ Space c) (hw : ∀ d ∈ ws, Space d) : rtrim (b ++ [c] ++ ws) = b ++ [c] := by
  induction ws using list_snoc_induction with
  | hnil => rw [List.append_nil, rtrim_snoc, if_neg hc]
  | hsnoc ws d ih =>
    rw [← List.append_assoc, rtrim_snoc, if_pos (hw d (by simp)), ih (fun e he => hw e (by simp [he]))]

theorem unquote_eq (b body ws : Bytes) (hb : b = b!"\"" ++ body ++ b!"\"" ++ ws) (hw : ∀ c ∈ ws, Space c) :
    unquote b = out [] (dec body) := by
  unfold unquote
  have : rtrim b = b!"\"" ++ body ++ b!"\"" := by rw [hb]; exact rtrim_of _ _ _ (by decide) hw
  simp only [this]
  rw [if_neg (by simp [List.getLast?_cons])]
  have := unquoteLoop_eq (b!"\"" ++ body ++ b!"\"").length b!"\"" body [] _ (by simp) rfl (by simp; omega)
  simpa using this

/-- **C50.** `git_str_unquote` accepts exactly text between quotes, with trailing white space, whose contents are plain bytes and escape
sequences, and returns the bytes they stand for. -/
theorem C50_unquote (b t : Bytes) :
    unquote b = .ok t ↔ ∃ body ws, b = b!"\"" ++ body ++ b!"\"" ++ ws ∧ (∀ c ∈ ws, Space c) ∧ Decodes body t := by
  constructor
  · intro h
    obtain ⟨ws, h1, h2, h3⟩ := rtrim_split b
    have hq : ∃ body, rtrim b = b!"\"" ++ body ++ b!"\"" := by
      unfold unquote at h
      dsimp only at h
      split at h
      · cases h
      · rename_i hc
        simp only [not_or, Nat.not_lt, Decidable.not_not] at hc
        obtain ⟨c1, c2, c3⟩ := hc
        generalize rtrim b = r at *
        cases r with
        | nil => simp at c2
        | cons q r =>
          simp at c2; subst c2
          cases hr : r.reverse with
          | nil => simp at hr; subst hr; simp at c1
          | cons z y =>
            have : r = y.reverse ++ [z] := by rw [← List.reverse_reverse r, hr]; simp
            subst this
            simp [List.getLast?_cons] at c3
            subst c3
            exact ⟨y.reverse, by simp⟩
    obtain ⟨body, hbody⟩ := hq
    rw [hbody] at h1
    refine ⟨body, ws, h1, h2, ?_⟩
    rw [unquote_eq b body ws h1 h2] at h
    cases hd : dec body with
    | none => rw [hd] at h; cases h
    | some u => rw [hd] at h; simp [out] at h; subst h; exact (dec_iff _ _).mp hd
  · rintro ⟨body, ws, h1, h2, h3⟩
    rw [unquote_eq b body ws h1 h2, (dec_iff _ _).mpr h3]; rfl

/-- every other text is refused with -1, and nothing outside the buffer is read -/
theorem C50_unquote_refused (b : Bytes) : (∃ t, unquote b = .ok t) ∨ unquote b = .err (-1) := by
  by_cases hq : ∃ body ws, b = b!"\"" ++ body ++ b!"\"" ++ ws ∧ ∀ c ∈ ws, Space c
  · obtain ⟨body, ws, h1, h2⟩ := hq
    rw [unquote_eq b body ws h1 h2]
    cases dec body with
    | none => right; rfl
    | some t => left; exact ⟨_, rfl⟩
  · right
    unfold unquote
    dsimp only
    rw [if_pos]
    obtain ⟨ws, h1, h2, h3⟩ := rtrim_split b
    apply Classical.byContradiction
    intro hc
    simp only [not_or, Nat.not_lt, Decidable.not_not] at hc
    obtain ⟨c1, c2, c3⟩ := hc
    apply hq
    generalize rtrim b = r at *
    cases r with
    | nil => simp at c2
    | cons q r =>
      simp at c2; subst c2
      cases hr : r.reverse with
      | nil => simp at hr; subst hr; simp at c1
      | cons z y =>
        have : r = y.reverse ++ [z] := by rw [← List.reverse_reverse r, hr]; simp
        subst this
        simp [List.getLast?_cons] at c3
        subst c3
        exact ⟨y.reverse, ws, by rw [h1]; simp, h2⟩

theorem written_decodes (c : UInt8) (r t : Bytes) (h : Decodes r t) : Decodes (written c ++ r) (c :: t) := by
  have hk : (written c = [c] ∧ c ≠ c!"\\") ∨ (∃ e ∈ (letters.map (·.1)), written c = [c!"\\", e] ∧ (e, c) ∈ letters) ∨
      (written c = [c!"\\", 48 + c / 64, 48 + c / 8 % 8, 48 + c % 8] ∧ (48 + c / 64 ∈ b!"0123" ∧ 48 + c / 8 % 8 ∈ b!"01234567" ∧ 48 + c % 8 ∈ b!"01234567") ∧
        c = UInt8.ofNat (val (48 + c / 64) * 64 + val (48 + c / 8 % 8) * 8 + val (48 + c % 8))) := by
    revert c
    set_option maxRecDepth 4000 in decide +kernel
  have ho : ∀ x ∈ b!"01234567", Octal x := by decide +kernel
  have h3 : ∀ x ∈ b!"0123", Octal x ∧ val x ≤ 3 := by decide +kernel
  rcases hk with ⟨h1, h2⟩ | ⟨e, _, h1, h2⟩ | ⟨h1, ⟨hx, hy, hz⟩, h2⟩
  · rw [h1]; exact .plain c h2 h
  · rw [h1]; exact .letter e c h2 h
  · rw [h1]; conv => rhs; rw [h2]
    exact .octal _ _ _ (h3 _ hx).1 (ho _ hy) (ho _ hz) (h3 _ hx).2 h

theorem flatMap_decodes (b : Bytes) : Decodes (b.flatMap written) b := by
  induction b with
  | nil => exact .nil
  | cons c cs ih => rw [List.flatMap_cons]; exact written_decodes c _ _ ih

/-- **C50.** Unquoting gives back what was quoted, for every byte string that `git_str_quote` put between quotes. -/
theorem C50_roundtrip (b : Bytes) (h : b.head? = some c!"!" ∨ ∃ c ∈ b, MustQuote c) : unquote (quote b) = .ok b := by
  rw [C50_unquote]
  refine ⟨b.flatMap written, [], ?_, by simp, flatMap_decodes b⟩
  rw [C50_quote, if_neg, List.append_nil]
  rintro ⟨h1, h2⟩
  rcases h with h | ⟨c, hc, hm⟩
  · exact h1 h
  · exact h2 c hc hm

/-- Text that was not put between quotes does not begin with a quote, so a reader that unquotes exactly what begins with a quote (as the
patch parser does) reads back every byte string. -/
theorem C50_reader (b : Bytes) :
    (if (quote b).head? = some c!"\"" then unquote (quote b) else .ok (quote b)) = .ok b := by
  by_cases h : b.head? = some c!"!" ∨ ∃ c ∈ b, MustQuote c
  · have hq : (quote b).head? = some c!"\"" := by
      rw [C50_quote, if_neg]
      · rfl
      · rintro ⟨h1, h2⟩
        rcases h with h | ⟨c, hc, hm⟩
        · exact h1 h
        · exact h2 c hc hm
    rw [if_pos hq, C50_roundtrip b h]
  · have h1 : quote b = b := by
      rw [C50_quote, if_pos]
      exact ⟨fun hh => h (.inl hh), fun c hc hm => h (.inr ⟨c, hc, hm⟩)⟩
    rw [h1, if_neg]
    intro hh
    apply h
    right
    cases b with
    | nil => simp at hh
    | cons c cs => simp at hh; subst hh; exact ⟨c!"\"", by simp, by decide⟩

/-! ### escaping -/

theorem takeWhile_take {α} (p : α → Bool) (s : List α) : s.take (s.takeWhile p).length = s.takeWhile p := by
  conv => lhs; arg 2; rw [← List.takeWhile_append_dropWhile (p := p) (l := s)]
  rw [List.take_append_of_le_length (Nat.le_refl _), List.take_length]

theorem takeWhile_drop {α} (p : α → Bool) (s : List α) : s.drop (s.takeWhile p).length = s.dropWhile p := by
  conv => lhs; arg 2; rw [← List.takeWhile_append_dropWhile (p := p) (l := s)]
  rw [List.drop_left]

theorem escape_append (esc w a b : Bytes) : escape esc w (a ++ b) = escape esc w a ++ escape esc w b := by
  simp [escape]

theorem escape_none (esc w a : Bytes) (h : ∀ c ∈ a, c ∉ esc) : escape esc w a = a := by
  induction a with
  | nil => rfl
  | cons c cs ih =>
    have := ih (fun d hd => h d (by simp [hd]))
    unfold escape at this ⊢
    rw [List.flatMap_cons, this, if_neg (h c (by simp))]; rfl

theorem escapeRun_eq (esc w : Bytes) (a rest o : Bytes) (h : ∀ c ∈ a, c ∈ esc) :
    escapeRun w a.length (a ++ rest) o = (rest, o ++ escape esc w a) := by
  induction a generalizing o with
  | nil => simp [escapeRun, escape]
  | cons c cs ih =>
    rw [List.length_cons, escapeRun]
    simp only [List.cons_append, List.drop_one, List.tail_cons, List.take_one, List.head?_cons, Option.toList_some]
    rw [ih _ (fun d hd => h d (by simp [hd]))]
    simp [escape, h c (by simp)]

theorem mem_takeWhile {α} (p : α → Bool) (s : List α) : ∀ c ∈ s.takeWhile p, p c = true := by
  induction s with
  | nil => simp
  | cons a s ih =>
    intro c hc
    rw [List.takeWhile_cons] at hc
    split at hc
    · rename_i h
      rcases List.mem_cons.mp hc with rfl | hc
      · exact h
      · exact ih c hc
    · simp at hc

theorem dropWhile_len {α} (p : α → Bool) (s : List α) : (s.dropWhile p).length ≤ s.length := (List.dropWhile_sublist _).length_le

/-- two runs make progress -/
theorem runs_lt (p : UInt8 → Bool) (s : Bytes) (h : s ≠ []) : ((s.dropWhile (fun c => !p c)).dropWhile p).length < s.length := by
  cases s with
  | nil => exact absurd rfl h
  | cons c cs =>
    by_cases hp : p c = true
    · rw [List.dropWhile_cons]
      simp only [hp, Bool.not_true, Bool.false_eq_true, if_false]
      rw [List.dropWhile_cons, if_pos hp]
      have := dropWhile_len p cs
      simp; omega
    · rw [List.dropWhile_cons]
      simp only [hp, Bool.not_false, if_true]
      have := dropWhile_len p (cs.dropWhile (fun c => !p c))
      have := dropWhile_len (fun c => !p c) cs
      simp; omega

theorem escapeLoop_eq (esc w : Bytes) (fuel : Nat) (s o : Bytes) (h : s.length < fuel) : escapeLoop esc w fuel s o = o ++ escape esc w s := by
  induction fuel generalizing s o with
  | zero => omega
  | succ fuel ih =>
    rw [escapeLoop]
    by_cases hs : s = []
    · subst hs; simp [escape]
    rw [if_neg hs]
    dsimp only
    rw [takeWhile_take, takeWhile_drop]
    have hr := escapeRun_eq esc w ((s.dropWhile (fun c => !esc.contains c)).takeWhile (fun c => esc.contains c))
      ((s.dropWhile (fun c => !esc.contains c)).dropWhile (fun c => esc.contains c)) (o ++ s.takeWhile (fun c => !esc.contains c))
      (fun c hc => by simpa using mem_takeWhile _ _ c hc)
    rw [List.takeWhile_append_dropWhile] at hr
    rw [hr]
    dsimp only
    have hlt := runs_lt (fun c => esc.contains c) s hs
    rw [ih _ _ (by omega)]
    conv => rhs; rw [← List.takeWhile_append_dropWhile (p := fun c => !esc.contains c) (l := s), escape_append,
      escape_none esc w _ (fun c hc => by simpa using mem_takeWhile _ _ c hc),
      ← List.takeWhile_append_dropWhile (p := fun c => esc.contains c) (l := s.dropWhile (fun c => !esc.contains c)), escape_append]
    simp

theorem escape_all_length (esc w a : Bytes) (h : ∀ c ∈ a, c ∈ esc) : (escape esc w a).length = a.length * (w.length + 1) := by
  induction a with
  | nil => simp [escape]
  | cons c cs ih =>
    have := ih (fun d hd => h d (by simp [hd]))
    unfold escape at this ⊢
    rw [List.flatMap_cons, List.length_append, this, if_pos (h c (by simp))]
    simp [Nat.add_mul]; omega

theorem escapedSize_eq (esc w : Bytes) (fuel : Nat) (s : Bytes) (t : Nat) (h : s.length < fuel) :
    escapedSize esc w fuel s t = t + (escape esc w s).length := by
  induction fuel generalizing s t with
  | zero => omega
  | succ fuel ih =>
    rw [escapedSize]
    by_cases hs : s = []
    · subst hs; simp [escape]
    rw [if_neg hs]
    dsimp only
    rw [takeWhile_drop, takeWhile_drop]
    have hlt := runs_lt (fun c => esc.contains c) s hs
    rw [ih _ _ (by omega)]
    conv => rhs; rw [← List.takeWhile_append_dropWhile (p := fun c => !esc.contains c) (l := s), escape_append,
      escape_none esc w _ (fun c hc => by simpa using mem_takeWhile _ _ c hc),
      ← List.takeWhile_append_dropWhile (p := fun c => esc.contains c) (l := s.dropWhile (fun c => !esc.contains c)), escape_append]
    rw [List.length_append, List.length_append, escape_all_length esc w (List.takeWhile (fun c => esc.contains c) _) (fun c hc => by simpa using mem_takeWhile _ _ c hc)]
    omega

/-- **C50.** `git_str_puts_escaped` appends the string with the escape before every byte of the set, and never writes past the room it
asked for. -/
theorem C50_escape (buf s esc w : Bytes) : putsEscaped buf s esc w = .ok (buf ++ escape esc w s) := by
  unfold putsEscaped
  rw [escapedSize_eq esc w _ _ _ (by omega), escapeLoop_eq esc w _ _ _ (by omega)]
  simp

/-- Text without a backslash is kept, and so is a backslash at the very end; a backslash before a character goes. -/
theorem C50_unescape_plain (s t : Bytes) (h : c!"\\" ∉ s) : unescape (s ++ t) = s ++ unescape t ∧ unescape b!"\\" = b!"\\" ∧
    ∀ c, unescape (c!"\\" :: c :: t) = c :: unescape t := by
  refine ⟨?_, by decide, fun c => rfl⟩
  induction s with
  | nil => rfl
  | cons c cs ih =>
    have hc : c ≠ c!"\\" := fun hc => h (by simp [hc])
    have : unescape (c :: (cs ++ t)) = c :: unescape (cs ++ t) := by
      cases hh : cs ++ t <;> simp [unescape, hc]
    rw [List.cons_append, this, ih (fun hm => h (List.mem_cons_of_mem _ hm))]
    rfl

/-- **C50.** Unescaping undoes escaping with a backslash, for every string and every set of bytes to escape that contains the
backslash. -/
theorem C50_unescape (s esc : Bytes) (h : c!"\\" ∈ esc) : ∃ e, putsEscaped [] s esc b!"\\" = .ok e ∧ unescape e = s := by
  refine ⟨_, C50_escape [] s esc b!"\\", ?_⟩
  rw [List.nil_append]
  induction s with
  | nil => rfl
  | cons c cs ih =>
    unfold escape at ih ⊢
    simp only [List.cons_append, List.nil_append] at ih
    rw [List.flatMap_cons]
    by_cases hc : c ∈ esc
    · rw [if_pos hc]
      simp only [List.cons_append, List.nil_append]
      rw [unescape.eq_def]
      simp [ih]
    · rw [if_neg hc]
      simp only [List.cons_append, List.nil_append]
      have : c ≠ c!"\\" := fun e => hc (e ▸ h)
      rw [unescape.eq_def]
      simp [ih, this]

/-- the escaped form of a string for a regular expression unescapes to the string -/
theorem C50_regex (s : Bytes) : ∃ e, putsEscapeRegex [] s = .ok e ∧ unescape e = s := C50_unescape s _ (by decide)

/-! ### percent decoding -/

theorem hex_some (c : UInt8) : isXdigit c = true → ∃ v ∈ List.range 16, Spec.hexVal c = some v ∧ hexDecode c = v := by
  revert c; decide +kernel

theorem hex_none (c : UInt8) : isXdigit c = false ↔ Spec.hexVal c = none := by
  revert c; decide +kernel

theorem decodeLoop_acc (fuel : Nat) (s o : Bytes) : decodeLoop fuel s o = o ++ decodeLoop fuel s [] := by
  induction fuel generalizing s o with
  | zero => simp [decodeLoop]
  | succ fuel ih =>
    cases s with
    | nil => simp [decodeLoop]
    | cons c rest =>
      rw [decodeLoop, decodeLoop]
      split
      · rw [ih, ih (rest.drop 2) ([] ++ _)]; simp
      · rw [ih, ih rest ([] ++ _)]; simp

theorem decodeLoop_spec (fuel : Nat) (s : Bytes) (h : s.length ≤ fuel) : Percent s (decodeLoop fuel s []) := by
  induction fuel generalizing s with
  | zero => have : s = [] := List.length_eq_zero_iff.mp (by omega); subst this; exact .nil
  | succ fuel ih =>
    cases s with
    | nil => exact .nil
    | cons c rest =>
      rw [decodeLoop]
      rw [List.length_cons] at h
      split
      · rename_i hc
        obtain ⟨hc, hl, hx, hy⟩ := hc
        subst hc
        match rest, hl, h, hx, hy with
        | [], hl, _, _, _ => simp at hl
        | [_], hl, _, _, _ => simp at hl
        | x :: y :: r, _, h, hx, hy =>
          simp only [List.getD_cons_zero, List.getD_cons_succ, List.drop_succ_cons, List.drop_zero] at *
          rw [decodeLoop_acc]
          obtain ⟨a, ha, h1, h2⟩ := hex_some x hx
          obtain ⟨b, hb, h3, h4⟩ := hex_some y hy
          rw [List.mem_range] at ha hb
          have : UInt8.ofNat ((hexDecode x * 16 + hexDecode y) % 256).toNat = UInt8.ofNat (a * 16 + b) := by
            rw [h2, h4]; congr 1; omega
          rw [this]
          exact .code x y a b h1 h3 (ih r (by simp at h; omega))
      · rename_i hc
        rw [decodeLoop_acc]
        refine .self c ?_ (ih rest (by omega))
        intro hp x y z hr
        subst hr
        simp only [List.getD_cons_zero, List.getD_cons_succ] at hc
        rw [← hex_none, ← hex_none]
        cases hxx : isXdigit x with
        | false => left; rfl
        | true =>
          cases hyy : isXdigit y with
          | false => right; rfl
          | true => exact absurd ⟨hp, by simp, hxx, hyy⟩ hc

theorem percent_fun (s t u : Bytes) (h1 : Percent s t) (h2 : Percent s u) : t = u := by
  induction h1 generalizing u with
  | nil => cases h2; rfl
  | code x y a b hx hy _ ih =>
    cases h2 with
    | code _ _ a' b' hx' hy' h' =>
      rw [hx] at hx'; rw [hy] at hy'; cases hx'; cases hy'
      rw [ih _ h']
    | self _ hn h' =>
      rcases hn rfl _ _ _ rfl with h | h
      · rw [hx] at h; cases h
      · rw [hy] at h; cases h
  | self c hn _ ih =>
    cases h2 with
    | code x y a b hx hy h' =>
      rcases hn rfl _ _ _ rfl with h | h
      · rw [hx] at h; cases h
      · rw [hy] at h; cases h
    | self _ hn' h' => rw [ih _ h']

/-- **C50.** Percent decoding of every byte string is what the specification says: `%` with two hexadecimal digits is one byte,
everything else stands for itself. -/
theorem C50_percent (buf s t : Bytes) : decodePercent buf s = buf ++ t ↔ Percent s t := by
  unfold decodePercent
  rw [decodeLoop_acc]
  have := decodeLoop_spec s.length s (Nat.le_refl _)
  constructor
  · intro h; rw [← List.append_cancel_left h]; exact this
  · intro h; rw [percent_fun _ _ _ this h]

/-- a percent-encoding of `t`: every byte either stands for itself, when it is not `%`, or is written with two hexadecimal digits -/
inductive Encoding : Bytes → Bytes → Prop where
  | nil : Encoding [] []
  | self (c : UInt8) {t e} : c ≠ c!"%" → Encoding t e → Encoding (c :: t) (c :: e)
  | code (c x y : UInt8) (a b : Nat) {t e} : Spec.hexVal x = some a → Spec.hexVal y = some b → c.toNat = a * 16 + b → Encoding t e →
      Encoding (c :: t) (c!"%" :: x :: y :: e)

/-- **C50.** Percent decoding gives back the text from any of its encodings. -/
theorem C50_percent_roundtrip (t e : Bytes) (h : Encoding t e) : decodePercent [] e = t := by
  have : Percent e t := by
    induction h with
    | nil => exact .nil
    | self c hc _ ih => exact .self c (fun hh => absurd hh hc) ih
    | code c x y a b hx hy hv _ ih =>
      have := Percent.code x y a b hx hy ih
      rw [← hv] at this
      simpa using this
  simpa using (C50_percent [] e t).mpr this

/-! ### concrete cases -/
example : quote b!"a\nb" = b!"\"a\\nb\"" := by decide +kernel
example : quote [c!"!", c!"x"] = b!"\"!x\"" := by decide +kernel
example : quote [c!"x", 0xc3, 0xa9] = b!"\"x\\303\\251\"" := by decide +kernel
example : quote b!"a b!" = b!"a b!" := by decide +kernel
example : unquote b!"\"x\\303\\251\\t\"  \n" = .ok [c!"x", 0xc3, 0xa9, 9] := by decide +kernel
example : unquote b!"\"\\40\"" = .err (-1) := by decide +kernel
example : unquote b!"\"\\3\"" = .err (-1) := by decide +kernel
example : unquote b!"\"a\\\"" = .err (-1) := by decide +kernel
example : ∃ c ∈ b!"a\nb", MustQuote c := by decide
example : putsEscapeRegex b!"^" b!"a.b\\" = .ok b!"^a\\.b\\\\" := by decide +kernel
example : decodePercent [] b!"a%20b%zz%4" = b!"a b%zz%4" := by decide +kernel
example : Encoding b!"a%" b!"a%25" := .self _ (by decide) (.code _ _ _ 2 5 rfl rfl rfl .nil)

end Verif.Quote
