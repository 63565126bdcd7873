import Verif.Crlf.Model
import Verif.Crlf.Spec
namespace Verif.Crlf
open Spec

/-! ### the two conversions -/

theorem mem_split {α} [DecidableEq α] (a : α) (s : List α) (h : a ∈ s) :
    s = s.takeWhile (· ≠ a) ++ a :: s.drop ((s.takeWhile (· ≠ a)).length + 1) := by
  induction s with
  | nil => simp at h
  | cons c cs ih =>
    by_cases hc : c = a
    · subst hc; simp
    · have : a ∈ cs := by rcases List.mem_cons.mp h with h | h; exact absurd h.symm hc; exact h
      rw [List.takeWhile_cons, if_pos (by simpa using hc), List.length_cons, List.drop_succ_cons, List.cons_append, ← ih this]

theorem not_mem_takeWhile {α} [DecidableEq α] (a : α) (s : List α) : a ∉ s.takeWhile (· ≠ a) := by
  induction s with
  | nil => simp
  | cons c cs ih =>
    rw [List.takeWhile_cons]
    split
    · rename_i h; simp at h; rw [List.mem_cons, not_or]; exact ⟨Ne.symm h, ih⟩
    · simp

theorem toLf_noCr (s t : Bytes) (h : c!"\r" ∉ s) : toLf (s ++ t) = s ++ toLf t := by
  induction s with
  | nil => rfl
  | cons c cs ih =>
    rw [List.mem_cons, not_or] at h
    rw [List.cons_append, toLf, if_neg (fun hh => h.1 hh.1.symm), ih h.2]; rfl

theorem toLf_id (s : Bytes) (h : c!"\r" ∉ s) : toLf s = s := by
  have := toLf_noCr s [] h
  simpa [toLf] using this

theorem toLfLoop_eq (fuel : Nat) (s out : Bytes) (h : s.length < fuel) : toLfLoop fuel s out = out ++ toLf s := by
  induction fuel generalizing s out with
  | zero => omega
  | succ fuel ih =>
    rw [toLfLoop]
    by_cases hm : c!"\r" ∈ s
    · rw [if_pos hm]
      have hs := mem_split _ s hm
      have hn := not_mem_takeWhile c!"\r" s
      dsimp only
      generalize s.takeWhile (· ≠ c!"\r") = chunk at *
      generalize s.drop (chunk.length + 1) = rest at *
      subst hs
      simp at h
      rw [ih _ _ (by omega), toLf_noCr _ _ hn]
      rw [toLf]
      cases rest with
      | nil => simp [toLf]
      | cons d r =>
        by_cases hd : d = c!"\n"
        · subst hd; simp
        · simp [hd]
    · rw [if_neg hm, toLf_id s hm]

theorem toLf_length (s : Bytes) : (toLf s).length ≤ s.length := by
  induction s with
  | nil => simp [toLf]
  | cons c cs ih => rw [toLf]; split <;> simp <;> omega

theorem crlfToLf_eq (s : Bytes) : crlfToLf s = .ok (toLf s) := by
  unfold crlfToLf
  by_cases h : c!"\r" ∈ s
  · rw [if_pos h]; simp only [toLfLoop_eq _ s [] (Nat.lt_succ_self _), List.nil_append, if_pos (toLf_length s)]
  · rw [if_neg h, toLf_id s h]

theorem toCrlfFrom_append (p : Option UInt8) (s t : Bytes) (h : c!"\n" ∉ s) :
    toCrlfFrom p (s ++ t) = s ++ toCrlfFrom (s.getLast?.or p) t := by
  induction s generalizing p with
  | nil => simp
  | cons c cs ih =>
    rw [List.mem_cons, not_or] at h
    rw [List.cons_append, toCrlfFrom, if_neg (fun hh => h.1 hh.1.symm), ih _ h.2]
    cases cs with
    | nil => simp
    | cons d ds => simp [List.getLast?_cons]

theorem toCrlf_id (p : Option UInt8) (s : Bytes) (h : c!"\n" ∉ s) : toCrlfFrom p s = s := by
  have := toCrlfFrom_append p s [] h
  simpa [toCrlfFrom] using this

/-- only whether the byte before is a carriage return matters -/
theorem toCrlfFrom_prev (p q : Option UInt8) (s : Bytes) (h : p = some c!"\r" ↔ q = some c!"\r") : toCrlfFrom p s = toCrlfFrom q s := by
  cases s with
  | nil => rfl
  | cons c cs => rw [toCrlfFrom, toCrlfFrom]; simp only [ne_eq, h]

theorem toCrlfLoop_eq (fuel : Nat) (s out : Bytes) (h : s.length < fuel) : toCrlfLoop fuel s out = out ++ toCrlf s := by
  unfold toCrlf
  induction fuel generalizing s out with
  | zero => omega
  | succ fuel ih =>
    rw [toCrlfLoop]
    by_cases hm : c!"\n" ∈ s
    · rw [if_pos hm]
      have hs := mem_split _ s hm
      have hn := not_mem_takeWhile c!"\n" s
      dsimp only
      generalize s.takeWhile (· ≠ c!"\n") = chunk at *
      generalize s.drop (chunk.length + 1) = rest at *
      subst hs
      simp at h
      rw [ih _ _ (by omega), toCrlfFrom_append _ _ _ hn, Option.or_none, toCrlfFrom]
      rw [toCrlfFrom_prev none (some c!"\n") rest (by simp)]
      by_cases hl : chunk.getLast? = some c!"\r"
      · rw [if_pos hl, if_neg (by simp [hl])]
        have : chunk.take (chunk.length - 1) ++ b!"\r" = chunk := by
          cases hr : chunk.reverse with
          | nil => rw [List.reverse_eq_nil_iff] at hr; subst hr; simp at hl
          | cons z y =>
            have : chunk = y.reverse ++ [z] := by rw [← List.reverse_reverse chunk, hr]; simp
            subst this
            simp at hl; subst hl; simp
        conv => rhs; rw [← this]
        simp
      · rw [if_neg hl, if_pos ⟨rfl, by simpa using hl⟩]
        simp
    · rw [if_neg hm, toCrlf_id _ s hm]

theorem lfToCrlf_eq (s : Bytes) : lfToCrlf s = toCrlf s := by
  unfold lfToCrlf
  by_cases h : c!"\n" ∈ s
  · rw [if_pos h, toCrlfLoop_eq _ s [] (Nat.lt_succ_self _)]; rfl
  · rw [if_neg h]; exact (toCrlf_id _ s h).symm

/-- from LF to CRLF and back -/
theorem toLf_toCrlf (s : Bytes) : toLf (toCrlf s) = toLf s := by
  have key : ∀ s : Bytes, (∀ p, p ≠ some c!"\r" → toLf (toCrlfFrom p s) = toLf s) ∧
      toLf (c!"\r" :: toCrlfFrom (some c!"\r") s) = toLf (c!"\r" :: s) := by
    intro s
    induction s with
    | nil => exact ⟨fun _ _ => rfl, rfl⟩
    | cons c cs ih =>
      by_cases hn : c = c!"\n"
      · subst hn
        have e : toLf (toCrlfFrom (some c!"\n") cs) = toLf cs := ih.1 _ (by simp)
        constructor
        · intro p hp
          rw [toCrlfFrom, if_pos ⟨rfl, hp⟩, toLf, if_pos ⟨rfl, rfl⟩, toLf, if_neg (by simp), e, toLf, if_neg (by simp)]
        · rw [toCrlfFrom, if_neg (by simp), toLf, if_pos ⟨rfl, rfl⟩, toLf, if_neg (by simp), e]
          rw [toLf, if_pos ⟨rfl, rfl⟩, toLf, if_neg (by simp)]
      · by_cases hr : c = c!"\r"
        · subst hr
          constructor
          · intro p hp
            rw [toCrlfFrom, if_neg (by simp), ih.2]
          · rw [toCrlfFrom, if_neg (by simp), toLf, if_neg (by simp), ih.2]
            rw [toLf.eq_def (c!"\r" :: c!"\r" :: cs)]; simp
        · have e : toLf (toCrlfFrom (some c) cs) = toLf cs := ih.1 _ (by simpa using hr)
          constructor
          · intro p hp
            rw [toCrlfFrom, if_neg (fun h => hn h.1), toLf, if_neg (fun h => hr h.1), e, toLf, if_neg (fun h => hr h.1)]
          · rw [toCrlfFrom, if_neg (fun h => hn h.1), toLf, if_neg (by simpa using hn), toLf, if_neg (fun h => hr h.1), e]
            rw [toLf.eq_def (c!"\r" :: c :: cs)]
            simp only [List.head?_cons]
            rw [if_neg (by simpa using hn), toLf, if_neg (fun h => hr h.1)]
  exact (key s).1 none (by simp)

theorem toCrlf_idem (s : Bytes) : toCrlf (toCrlf s) = toCrlf s := by
  unfold toCrlf
  have key : ∀ (s : Bytes) p, toCrlfFrom p (toCrlfFrom p s) = toCrlfFrom p s := by
    intro s
    induction s with
    | nil => intro _; rfl
    | cons c cs ih =>
      intro p
      rw [toCrlfFrom]
      split
      · rename_i h
        rw [toCrlfFrom, if_neg (fun hh => by rw [h.1] at *; simp at hh), toCrlfFrom, if_neg (by simp), ih]
      · rename_i h
        rw [toCrlfFrom, if_neg h, ih]
  exact key s none

/-! ### counting -/

theorem countP_toLf (p : UInt8 → Bool) (h : p c!"\r" = false) (s : Bytes) : (toLf s).countP p = s.countP p := by
  induction s with
  | nil => rfl
  | cons c cs ih =>
    rw [toLf]
    split
    · rename_i hc; rw [hc.1, ih, List.countP_cons, h]; simp
    · rw [List.countP_cons, List.countP_cons, ih]

theorem countP_toCrlf (p : UInt8 → Bool) (h : p c!"\r" = false) (q : Option UInt8) (s : Bytes) : (toCrlfFrom q s).countP p = s.countP p := by
  induction s generalizing q with
  | nil => rfl
  | cons c cs ih =>
    rw [toCrlfFrom]
    split
    · rw [List.countP_cons, List.countP_cons, ih, h, List.countP_cons]; simp
    · rw [List.countP_cons, List.countP_cons, ih]

theorem cr_toLf (s : Bytes) : (toLf s).count c!"\r" + pairs s = s.count c!"\r" := by
  induction s with
  | nil => rfl
  | cons c cs ih =>
    rw [toLf, pairs]
    split
    · rename_i hc; rw [hc.1, List.count_cons_self]; omega
    · rw [List.count_cons, List.count_cons]; omega

theorem pairs_le_lf' (s : Bytes) : pairs s + (if s.head? = some c!"\n" then 1 else 0) ≤ s.count c!"\n" := by
  induction s with
  | nil => simp [pairs]
  | cons c cs ih =>
    rw [pairs, List.count_cons]
    by_cases h : c = c!"\r"
    · subst h
      by_cases h2 : cs.head? = some c!"\n"
      · rw [if_pos h2] at ih; simp [h2]; omega
      · rw [if_neg h2] at ih; simp [h2]; omega
    · by_cases hn : c = c!"\n"
      · subst hn; simp; split at ih <;> omega
      · simp [h, hn]; split at ih <;> omega

theorem pairs_le_lf (s : Bytes) : pairs s ≤ s.count c!"\n" := by have := pairs_le_lf' s; omega

theorem pairs_le_cr (s : Bytes) : pairs s ≤ s.count c!"\r" := by have := cr_toLf s; omega

/-- a CRLF for every newline -/
theorem pairs_toCrlf (q : Option UInt8) (s : Bytes) :
    pairs (toCrlfFrom q s) + (if q = some c!"\r" ∧ s.head? = some c!"\n" then 1 else 0) = s.count c!"\n" := by
  induction s generalizing q with
  | nil => simp [toCrlfFrom, pairs]
  | cons c cs ih =>
    rw [toCrlfFrom]
    have ih := ih (some c)
    by_cases hn : c = c!"\n"
    · subst hn
      rw [if_neg (by simp)] at ih
      by_cases hq : q = some c!"\r"
      · rw [if_neg (by simp [hq]), if_pos ⟨hq, rfl⟩, pairs, if_neg (by simp), List.count_cons_self]; omega
      · rw [if_pos ⟨rfl, hq⟩, if_neg (by simp [hq]), pairs, if_pos ⟨rfl, rfl⟩, pairs, if_neg (by simp), List.count_cons_self]; omega
    · rw [if_neg (by simp [hn]), if_neg (by simp [hn]), pairs, List.count_cons_of_ne (by simpa using hn)]
      have hh : (toCrlfFrom (some c) cs).head? = some c!"\n" ↔ (c = c!"\r" ∧ cs.head? = some c!"\n") ∨ False := by
        cases cs with
        | nil => simp [toCrlfFrom]
        | cons d ds =>
          rw [toCrlfFrom]
          split
          · rename_i h; simp at h ⊢; simp [h]
          · rename_i h
            simp only [List.head?_cons, Option.some.injEq, or_false]
            constructor
            · intro e; refine ⟨?_, e⟩; simp at h; exact h e
            · exact fun e => e.2
      rw [or_false] at hh
      by_cases hc : c = c!"\r"
      · by_cases hd : cs.head? = some c!"\n"
        · have := hh.mpr ⟨hc, hd⟩
          rw [if_pos ⟨hc, this⟩]; rw [if_pos ⟨by rw [hc], hd⟩] at ih; omega
        · have : ¬ (toCrlfFrom (some c) cs).head? = some c!"\n" := fun e => hd (hh.mp e).2
          rw [if_neg (fun h => this h.2)]; rw [if_neg (fun h => hd h.2)] at ih; omega
      · rw [if_neg (fun h => hc h.1)]; rw [if_neg (by simp [hc])] at ih; omega

theorem cr_toCrlf (s : Bytes) (h : c!"\r" ∉ s) : (toCrlf s).count c!"\r" = s.count c!"\n" := by
  have e1 := cr_toLf (toCrlf s)
  have e2 := pairs_toCrlf none s
  rw [toLf_toCrlf, toLf_id s h, List.count_eq_zero_of_not_mem h] at e1
  unfold toCrlf at e1 ⊢
  simp at e2
  omega

theorem getLast_toLf (s : Bytes) : (toLf s).getLast? = s.getLast? := by
  induction s with
  | nil => rfl
  | cons c cs ih =>
    rw [toLf]
    cases cs with
    | nil => simp [toLf]
    | cons d ds =>
      split
      · rw [ih]; simp [List.getLast?_cons]
      · have hne : toLf (d :: ds) ≠ [] := by
          intro e; rw [e] at ih; simp [List.getLast?_cons] at ih
        rw [List.getLast?_cons, ih, List.getLast?_cons]
        simp [List.getLast?_cons]

theorem getLast_toCrlf (q : Option UInt8) (s : Bytes) : (toCrlfFrom q s).getLast? = s.getLast? := by
  induction s generalizing q with
  | nil => rfl
  | cons c cs ih =>
    rw [toCrlfFrom]
    split
    · rw [List.getLast?_cons, List.getLast?_cons, ih, List.getLast?_cons]; simp
    · rw [List.getLast?_cons, ih, List.getLast?_cons]

/-! ### the statistics -/

/-- the class of a byte -/
def plain (c : UInt8) : Bool := !(Odd c) && c != 10 && c != 13

set_option synthInstance.maxSize 1000 in
set_option synthInstance.maxHeartbeats 200000 in
theorem class_table (c : UInt8) :
    (c > 0x1f ∧ c ≠ 0x7f → plain c = true ∧ Odd c = false ∧ c ≠ 0 ∧ c ≠ 10 ∧ c ≠ 13) ∧
    (¬ (c > 0x1f ∧ c ≠ 0x7f) → c = 0 ∨ c = 10 ∨ c = 13 ∨
      ((c = c!"\t" ∨ c = 0x0c ∨ c = 0x0b ∨ c = 0x08 ∨ c = 0x1b) ∧ plain c = true ∧ Odd c = false ∧ c ≠ 0 ∧ c ≠ 10 ∧ c ≠ 13) ∨
      (¬ (c = c!"\t" ∨ c = 0x0c ∨ c = 0x0b ∨ c = 0x08 ∨ c = 0x1b) ∧ plain c = false ∧ Odd c = true ∧ c ≠ 0 ∧ c ≠ 10 ∧ c ≠ 13)) := by
  revert c; decide +kernel

theorem countLoop_eq (b : Bytes) (st : Stats) :
    countLoop b st = ⟨st.nul + b.count 0, st.cr + b.count 13, st.lf + b.count 10, st.crlf + pairs b,
      st.printable + b.countP plain, st.nonprintable + b.countP Odd⟩ := by
  induction b generalizing st with
  | nil => simp [countLoop, pairs]
  | cons c rest ih =>
    rw [countLoop]
    rw [ih]
    have ht := class_table c
    by_cases h1 : c > 0x1f ∧ c ≠ 0x7f
    · obtain ⟨a1, a2, a3, a4, a5⟩ := ht.1 h1
      rw [if_pos h1]
      simp [List.count_cons, List.countP_cons, pairs, a1, a2, a3, a4, a5]; omega
    · rw [if_neg h1]
      rcases ht.2 h1 with rfl | rfl | rfl | ⟨hs, a1, a2, a3, a4, a5⟩ | ⟨hs, a1, a2, a3, a4, a5⟩
      · have e1 : plain 0 = false := by decide
        have e2 : Odd 0 = true := by decide
        simp [List.count_cons, List.countP_cons, pairs, e1, e2]; omega
      · have e1 : plain 10 = false := by decide
        have e2 : Odd 10 = false := by decide
        simp [List.count_cons, List.countP_cons, pairs, e1, e2]; omega
      · have e1 : plain 13 = false := by decide
        have e2 : Odd 13 = false := by decide
        by_cases hh : rest.head? = some c!"\n" <;>
          simp [List.count_cons, List.countP_cons, pairs, e1, e2, hh] <;> omega
      · rw [if_neg a3, if_neg a4, if_neg a5, if_pos hs]
        simp [List.count_cons, List.countP_cons, pairs, a1, a2, a3, a4, a5]; omega
      · rw [if_neg a3, if_neg a4, if_neg a5, if_neg hs]
        simp [List.count_cons, List.countP_cons, pairs, a1, a2, a3, a4, a5]; omega

theorem pairs_snoc (b : Bytes) (c : UInt8) (h : c ≠ 10) : pairs (b ++ [c]) = pairs b := by
  induction b with
  | nil => simp [pairs]
  | cons d ds ih =>
    rw [List.cons_append, pairs, pairs, ih]
    cases ds with
    | nil => simp [h]
    | cons e es => simp

/-- the statistics of a text -/
theorem gather_eq (b : Bytes) :
    (gather b).1 = ⟨b.count 0, b.count 13, b.count 10, pairs b, b.countP plain,
      b.countP Odd - (if b.getLast? = some 0x1a then 1 else 0)⟩ := by
  unfold gather
  dsimp only
  by_cases h : b.getLast? = some 0x1a
  · rw [if_pos h, if_pos h, countLoop_eq]
    have hb : b = b.dropLast ++ [0x1a] := by
      cases hr : b.reverse with
      | nil => rw [List.reverse_eq_nil_iff] at hr; subst hr; simp at h
      | cons z y =>
        have : b = y.reverse ++ [z] := by rw [← List.reverse_reverse b, hr]; simp
        subst this
        simp at h; subst h; simp
    generalize b.dropLast = d at *
    subst hb
    have e1 : plain 26 = false := by decide
    have e2 : Odd 26 = true := by decide
    simp [List.count_append, List.countP_append, pairs_snoc, e1, e2]
  · rw [if_neg h, if_neg h, countLoop_eq]; simp

theorem gather_binary (b : Bytes) : (gather b).2 = true ↔ Binary b := by
  have h1 := gather_eq b
  have h2 : (gather b).2 = decide ((gather b).1.cr ≠ (gather b).1.crlf ∨ (gather b).1.nul > 0 ∨ (gather b).1.printable / 128 < (gather b).1.nonprintable) := rfl
  rw [h2, h1, decide_eq_true_iff]
  unfold Binary NoBareCr
  have : (0 : UInt8) ∈ b ↔ b.count 0 > 0 := by rw [List.count_pos_iff.symm]
  rw [this]
  constructor
  · rintro (h | h | h)
    · left; exact fun e => h e.symm
    · right; left; exact h
    · right; right; exact h
  · rintro (h | h | h)
    · left; exact fun e => h e.symm
    · right; left; exact h
    · right; right; exact h

/-- converting line ends of a text without bare CR does not change whether it is binary -/
theorem binary_toCrlf (s : Bytes) (h : c!"\r" ∉ s) : Binary (toCrlf s) ↔ Binary s := by
  unfold Binary NoBareCr
  have e1 : pairs (toCrlf s) = (toCrlf s).count c!"\r" := by
    rw [cr_toCrlf s h]
    have := pairs_toCrlf none s
    simp at this; exact this
  have e2 : pairs s = s.count c!"\r" := by
    have := pairs_le_cr s
    rw [List.count_eq_zero_of_not_mem h] at *; omega
  have e3 : (0 : UInt8) ∈ toCrlf s ↔ (0 : UInt8) ∈ s := by
    rw [← List.count_pos_iff, ← List.count_pos_iff, List.count_eq_countP, List.count_eq_countP]
    unfold toCrlf
    rw [countP_toCrlf _ (by rfl)]
  rw [e3]
  unfold toCrlf at *
  rw [countP_toCrlf _ (by rfl), countP_toCrlf _ (by decide), getLast_toCrlf]
  simp [e1, e2]

theorem binary_toLf (s : Bytes) (h : NoBareCr s) : Binary (toLf s) ↔ Binary s := by
  unfold Binary
  have e0 := cr_toLf s
  have e1 : NoBareCr (toLf s) := by
    unfold NoBareCr at *
    have := pairs_le_cr (toLf s)
    omega
  have e3 : (0 : UInt8) ∈ toLf s ↔ (0 : UInt8) ∈ s := by
    rw [← List.count_pos_iff, ← List.count_pos_iff, List.count_eq_countP, List.count_eq_countP, countP_toLf _ (by rfl)]
  rw [e3, countP_toLf _ (by rfl), countP_toLf _ (by decide), getLast_toLf]
  simp [e1, h]

/-- without CR CR LF no CRLF is left -/
theorem pairs_toLf (s : Bytes) (h : NoDouble s) : pairs (toLf s) = 0 := by
  induction s with
  | nil => rfl
  | cons c cs ih =>
    have hcs : NoDouble cs := fun x y e => h (c :: x) y (by rw [e]; rfl)
    rw [toLf]
    split
    · exact ih hcs
    · rename_i hc
      rw [pairs, ih hcs, if_neg]
      rintro ⟨rfl, h2⟩
      cases cs with
      | nil => simp [toLf] at h2
      | cons d ds =>
        rw [toLf] at h2
        split at h2
        · rename_i hd
          -- CR CR LF
          cases ds with
          | nil => simp at hd
          | cons e es =>
            simp at hd
            exact h [] es (by simp [hd])
        · simp at h2; subst h2; simp at hc

/-- from CRLF to LF and back -/
theorem toCrlf_toLf (s : Bytes) (h1 : AllCrlf s) (h2 : NoDouble s) : toCrlf (toLf s) = s := by
  have key : ∀ (n : Nat) (s : Bytes) (q : Option UInt8), s.length ≤ n → NoDouble s → (q = some c!"\r" → NoDouble (c!"\r" :: s)) →
      pairs s = s.count c!"\n" → toCrlfFrom q (toLf s) = s := by
    intro n
    induction n with
    | zero => intro s q hn _ _ _; have : s = [] := List.length_eq_zero_iff.mp (by omega); subst this; rfl
    | succ n ih =>
      intro s q hlen hd hq hp
      cases s with
      | nil => rfl
      | cons c cs =>
        have hdcs : NoDouble cs := fun x y e => hd (c :: x) y (by rw [e]; rfl)
        have hle := pairs_le_lf cs
        rw [List.length_cons] at hlen
        have hn : c ≠ c!"\n" := by
          intro e; subst e
          rw [pairs, if_neg (by simp), List.count_cons_self] at hp
          omega
        rw [pairs, List.count_cons_of_ne (by simpa using hn)] at hp
        by_cases hr : c = c!"\r" ∧ cs.head? = some c!"\n"
        · obtain ⟨rfl, hcs⟩ := hr
          cases cs with
          | nil => simp at hcs
          | cons d ds =>
            simp at hcs; subst hcs
            rw [toLf, if_pos ⟨rfl, rfl⟩, toLf, if_neg (by simp)]
            have hq' : q ≠ some c!"\r" := fun e => hq e [] ds rfl
            have hds : NoDouble ds := fun x y e => hdcs (c!"\n" :: x) y (by rw [e]; rfl)
            rw [if_pos ⟨rfl, rfl⟩, pairs, if_neg (by simp), List.count_cons_self] at hp
            rw [toCrlfFrom, if_pos ⟨rfl, hq'⟩, ih ds _ (by simp at hlen; omega) hds (by simp) (by omega)]
        · rw [if_neg hr] at hp
          rw [toLf, if_neg hr, toCrlfFrom, if_neg (fun h => hn h.1), ih cs _ (by omega) hdcs _ (by omega)]
          intro e
          simp at e
          rw [← e]; exact hd
  exact key s.length s none (Nat.le_refl _) h2 (by simp) h1

end Verif.Crlf
