import Verif.Patch.Lemmas5
import Verif.Patch.ModelParse
/-! # Reading the header of a hunk -/
namespace Verif.Patch
open Spec

theorem lineOf_plain : ∀ (s r : Bytes), c!"\n" ∉ s → lineOf (s ++ r) = s ++ lineOf r := by
  intro s
  induction s with
  | nil => intros; rfl
  | cons c s ih =>
    intro r h
    simp only [List.mem_cons, not_or] at h
    rw [List.cons_append, lineOf, if_neg (fun e => h.1 e.symm), ih r h.2, List.cons_append]

theorem afterLine_plain : ∀ (s r : Bytes), c!"\n" ∉ s → afterLine (s ++ r) = afterLine r := by
  intro s
  induction s with
  | nil => intros; rfl
  | cons c s ih =>
    intro r h
    simp only [List.mem_cons, not_or] at h
    rw [List.cons_append, afterLine, if_neg (fun e => h.1 e.symm), ih r h.2]

theorem lineOf_nl (r : Bytes) : lineOf (b!"\n" ++ r) = b!"\n" := by simp [lineOf]
theorem afterLine_nl (r : Bytes) : afterLine (b!"\n" ++ r) = r := by simp [afterLine]

theorem lineOf_head (r : Bytes) : (lineOf r).head? = r.head? := by
  cases r with
  | nil => rfl
  | cons c r => rw [lineOf]; split <;> rfl

theorem contains_prefix (s r : Bytes) (h : c!"\n" ∉ s) : contains (s ++ r) s = true := by
  unfold contains
  rw [lineOf_plain s r h]
  simp

theorem contains_head {rest s : Bytes} (h : contains rest s = true) : s <+: rest := by
  unfold contains at h
  simp only [decide_eq_true_eq] at h
  rw [← h.2]
  exact List.take_prefix _ _

theorem expect_prefix (s r : Bytes) (h : c!"\n" ∉ s) : expect (s ++ r) s = .ok r := by
  unfold expect
  rw [if_pos (contains_prefix s r h), List.drop_left]

theorem decimal_no_nl (n : Nat) : c!"\n" ∉ decimal n := by
  intro h
  have := decimal_digits n _ h
  revert this
  decide

theorem digit_val (c : UInt8) (h : c = c!" " ∨ c = c!",") : ∀ d, Verif.Strtol.Spec.Digit c d → 10 ≤ d := by
  have h1 : c ∉ Strtol.Spec.digits := by rcases h with rfl | rfl <;> decide
  have h2 : c ∉ Strtol.Spec.upper := by rcases h with rfl | rfl <;> decide
  intro d hd
  rcases hd with h | h
  · exact absurd (List.mem_of_getElem? h) h1
  · exact absurd (List.mem_of_getElem? h) h2

theorem parseInt_decimal (n : Nat) (r : Bytes) (hn : n < 2 ^ 31) (hr : r.head? = some c!" " ∨ r.head? = some c!",") : parseInt (decimal n ++ r) = .ok ((n : Int), r) := by
  obtain ⟨c, cs, hd, h1, h2⟩ := head_digit n
  have hl : lineOf (decimal n ++ r) = decimal n ++ lineOf r := lineOf_plain _ _ (decimal_no_nl n)
  unfold parseInt
  rw [hl, if_neg, strntol64_decimal n (lineOf r) (fun c hc => by
    rw [lineOf_head] at hc
    apply digit_val
    rcases hr with h | h <;> rw [hc] at h
    · exact .inl (Option.some.inj h)
    · exact .inr (Option.some.inj h)) (by omega), Res.bind_ok]
  · dsimp only
    rw [if_neg (by omega)]
    have e : (decimal n ++ lineOf r).length - (lineOf r).length = (decimal n).length := by rw [List.length_append]; omega
    rw [e, List.drop_left]
  · rw [hd]
    simp [(isDigit_iff c).mpr ⟨h1, h2⟩]

theorem parseRange_nums (s c : Nat) (r : Bytes) (hs : s < 2 ^ 31) (hc : c < 2 ^ 31) (hr : r.head? = some c!" ") :
    parseRange (nums s c ++ r) = .ok ((((if c ≠ 0 then s else s - 1 : Nat) : Int), (c : Int)), r) := by
  unfold parseRange nums
  by_cases h1 : c = 1
  · subst h1
    have e : (decimal (if 1 ≠ 0 then s else s - 1) ++ if 1 ≠ 1 then b!"," ++ decimal 1 else []) ++ r = decimal s ++ r := by simp
    rw [e, parseInt_decimal s r hs (.inl hr), Res.bind_ok]
    dsimp only
    rw [if_neg]
    · rfl
    · intro hc
      obtain ⟨t, ht⟩ := contains_head hc
      rw [← ht] at hr
      simp at hr
  · rw [if_pos h1]
    have e : (decimal (if c ≠ 0 then s else s - 1) ++ (b!"," ++ decimal c)) ++ r = decimal (if c ≠ 0 then s else s - 1) ++ (b!"," ++ (decimal c ++ r)) := by
      simp [List.append_assoc]
    rw [e, parseInt_decimal _ _ (by split <;> omega) (.inr (by simp)), Res.bind_ok]
    dsimp only
    rw [if_pos (contains_prefix _ _ (by decide)), show (b!"," ++ (decimal c ++ r)).drop 1 = decimal c ++ r from by simp, parseInt_decimal c r hc (.inl hr), Res.bind_ok]

theorem nums_no_nl (s c : Nat) : c!"\n" ∉ nums s c := by
  unfold nums
  rw [List.mem_append]
  rintro (h | h)
  · exact decimal_no_nl _ h
  · split at h
    · rcases List.mem_append.mp h with h | h
      · revert h; decide
      · exact decimal_no_nl _ h
    · cases h

/-- a header that is read again -/
theorem parseHeader_eq {s1 c1 s2 c2 : Nat} (x T : Bytes) (h1 : s1 < 2 ^ 31) (h2 : c1 < 2 ^ 31) (h3 : s2 < 2 ^ 31) (h4 : c2 < 2 ^ 31) (hz : c1 ≠ 0 ∨ c2 ≠ 0)
    (hx : c!"\n" ∉ x) (hl : (headText s1 c1 s2 c2 ++ x ++ b!"\n").length ≤ 127) :
    parseHeader (headText s1 c1 s2 c2 ++ x ++ b!"\n" ++ T) = .ok ({ oldStart := ((if c1 ≠ 0 then s1 else s1 - 1 : Nat) : Int), oldLines := c1, newStart := ((if c2 ≠ 0 then s2 else s2 - 1 : Nat) : Int), newLines := c2, header := headText s1 c1 s2 c2 ++ x ++ b!"\n", lines := [] }, T) := by
  unfold parseHeader
  have e : headText s1 c1 s2 c2 ++ x ++ b!"\n" ++ T = b!"@@ -" ++ (nums s1 c1 ++ (b!" +" ++ (nums s2 c2 ++ (b!" @@" ++ (x ++ (b!"\n" ++ T)))))) := by
    unfold headText
    simp only [List.append_assoc]
  have hlen : (headText s1 c1 s2 c2 ++ x ++ b!"\n" ++ T).length - T.length = (headText s1 c1 s2 c2 ++ x ++ b!"\n").length := by
    rw [List.length_append (bs := T)]; omega
  generalize hH : headText s1 c1 s2 c2 ++ x ++ b!"\n" = H at *
  have ex : expect (H ++ T) b!"@@ -" = .ok (nums s1 c1 ++ (b!" +" ++ (nums s2 c2 ++ (b!" @@" ++ (x ++ (b!"\n" ++ T)))))) := by
    rw [e]; exact expect_prefix _ _ (by decide)
  rw [ex, Res.bind_ok, parseRange_nums s1 c1 _ h1 h2 (by simp), Res.bind_ok]
  dsimp only
  rw [expect_prefix _ _ (by decide), Res.bind_ok, parseRange_nums s2 c2 _ h3 h4 (by simp), Res.bind_ok]
  dsimp only
  rw [expect_prefix _ _ (by decide), Res.bind_ok, afterLine_plain x _ hx, afterLine_nl, if_neg (by omega), hlen, if_neg (by omega), List.take_left]

theorem nums_length {n s c : Nat} (hn : n + 1 < 10 ^ 8) (hs : s ≤ n + 1) (hc : c ≤ n) : (nums s c).length ≤ 17 := by
  unfold nums
  have a := decimal_length 7 (if c ≠ 0 then s else s - 1) (by split <;> omega)
  have b := decimal_length 7 c (by omega)
  rw [List.length_append]
  generalize decimal (if c ≠ 0 then s else s - 1) = d at *
  split
  · rw [List.length_append]
    simp only [List.length_cons, List.length_nil]
    omega
  · simp only [List.length_nil]
    omega

theorem headText_length {n s1 c1 s2 c2 : Nat} (hn : n + 1 < 10 ^ 8) (h1 : s1 ≤ n + 1) (h2 : c1 ≤ n) (h3 : s2 ≤ n + 1) (h4 : c2 ≤ n) : (headText s1 c1 s2 c2).length ≤ 43 := by
  unfold headText
  have a := nums_length hn h1 h2
  have b := nums_length hn h3 h4
  simp only [List.length_append, List.length_cons, List.length_nil]
  omega

theorem headText_no_nl (s1 c1 s2 c2 : Nat) : c!"\n" ∉ headText s1 c1 s2 c2 := by
  unfold headText
  simp only [List.mem_append, not_or]
  exact ⟨⟨⟨⟨by decide, nums_no_nl _ _⟩, by decide⟩, nums_no_nl _ _⟩, by decide⟩

theorem nums_ascii (s c : Nat) : ∀ x ∈ nums s c, x.toNat < 0x80 := by
  have hd : ∀ n, ∀ x ∈ decimal n, x.toNat < 0x80 := by
    intro n x hx
    have := (decimal_digits n x hx).2
    have : x.toNat ≤ 57 := this
    omega
  unfold nums
  intro x hx
  rcases List.mem_append.mp hx with h | h
  · exact hd _ _ h
  · split at h
    · rcases List.mem_append.mp h with h | h
      · rw [List.mem_singleton.mp h]; decide +kernel
      · exact hd _ _ h
    · cases h

theorem headText_ascii (s1 c1 s2 c2 : Nat) : ∀ x ∈ headText s1 c1 s2 c2, x.toNat < 0x80 := by
  unfold headText
  intro x hx
  simp only [List.mem_append] at hx
  rcases hx with (((h | h) | h) | h) | h
  · revert h x; decide +kernel
  · exact nums_ascii _ _ x h
  · revert h x; decide +kernel
  · exact nums_ascii _ _ x h
  · revert h x; decide +kernel

/-- the line of a function: deps/xdiff/xemit.c `struct func_line` has room for 80 bytes -/
def FuncLine (func : Bytes) : Prop := func.length ≤ 80 ∧ c!"\n" ∉ func

/-- the header that is kept of a hunk -/
theorem header_kept {n s1 c1 s2 c2 : Nat} {func : Bytes} {h0 : Hunk} (hn : n + 1 < 10 ^ 8) (h1 : s1 ≤ n + 1) (h2 : c1 ≤ n) (h3 : s2 ≤ n + 1) (h4 : c2 ≤ n) (hf : FuncLine func)
    (he : readHeader (formatHeader s1 c1 s2 c2 func) = .ok h0) :
    ∃ x, h0 = { oldStart := ((if c1 ≠ 0 then s1 else s1 - 1 : Nat) : Int), oldLines := c1, newStart := ((if c2 ≠ 0 then s2 else s2 - 1 : Nat) : Int), newLines := c2, header := headText s1 c1 s2 c2 ++ x ++ b!"\n", lines := [] } ∧
      c!"\n" ∉ x ∧ (headText s1 c1 s2 c2 ++ x ++ b!"\n").length ≤ 127 := by
  obtain ⟨header, e, hc⟩ := readHeader_eq (s1 := s1) (c1 := c1) (s2 := s2) (c2 := c2) func (by omega) (by omega) (by omega) (by omega)
  rw [e] at he
  have he := Res.ok.inj he
  have hfl : (funcText s1 c1 s2 c2 func).length ≤ 81 := by
    unfold funcText
    split
    · simp only [List.length_append, List.length_take, List.length_cons, List.length_nil]
      have := hf.1
      omega
    · simp
  have hfn : c!"\n" ∉ funcText s1 c1 s2 c2 func := by
    unfold funcText
    split
    · intro h
      rcases List.mem_append.mp h with h | h
      · revert h; decide
      · exact hf.2 (List.mem_of_mem_take h)
    · simp
  have hhl := headText_length hn h1 h2 h3 h4
  rw [formatHeader_eq] at hc
  have hlen : (headText s1 c1 s2 c2 ++ funcText s1 c1 s2 c2 func ++ b!"\n").length ≤ 125 := by
    simp only [List.length_append, List.length_cons, List.length_nil]
    omega
  rcases hc with hc | ⟨k, hk, hs, hc⟩ | hc
  · exact ⟨funcText s1 c1 s2 c2 func, by rw [← he, hc], hfn, by omega⟩
  · have hkl : (headText s1 c1 s2 c2).length ≤ k := by
      by_contra hlt
      have hlt : k < (headText s1 c1 s2 c2).length := by omega
      have := hs (k + 1) (by omega)
      apply this
      rw [List.append_assoc, List.drop_append_of_le_length (by omega), List.drop_eq_getElem_cons hlt]
      rw [show k + 1 - k = 1 from by omega, List.cons_append, List.take_succ_cons, List.take_zero]
      exact .one _ (headText_ascii _ _ _ _ _ (List.getElem_mem hlt))
    have hk2 : k ≤ (headText s1 c1 s2 c2 ++ funcText s1 c1 s2 c2 func).length := by
      simp only [List.length_append, List.length_cons, List.length_nil] at hk ⊢
      omega
    have et : (headText s1 c1 s2 c2 ++ funcText s1 c1 s2 c2 func ++ b!"\n").take k = headText s1 c1 s2 c2 ++ (funcText s1 c1 s2 c2 func).take (k - (headText s1 c1 s2 c2).length) := by
      rw [List.take_append_of_le_length hk2, List.take_append, List.take_of_length_le hkl]
    refine ⟨(funcText s1 c1 s2 c2 func).take (k - (headText s1 c1 s2 c2).length), by rw [← he, hc, et], fun h => hfn (List.mem_of_mem_take h), ?_⟩
    simp only [List.length_append, List.length_cons, List.length_nil, List.length_take] at hlen ⊢
    omega
  · omega

end Verif.Patch
