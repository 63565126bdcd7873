import Verif.Utf8.Model
import Verif.Utf8.Spec
/-! # C48: UTF-8 -/
namespace Verif.Utf8
open Spec

theorem class_eq : ∀ a : UInt8, utf8class.getD a.toNat 0 =
    if a.toNat < 0x80 then 1 else if a.toNat < 0xC0 then 0 else if a.toNat < 0xE0 then 2 else if a.toNat < 0xF0 then 3 else if a.toNat < 0xF8 then 4 else 0 := by decide +kernel
theorem cont_eq : ∀ a : UInt8, (a.toNat &&& 0xC0 = 0x80) ↔ (0x80 ≤ a.toNat ∧ a.toNat < 0xC0) := by decide +kernel

theorem cont_iff (a : UInt8) : ¬ (a.toNat &&& 0xC0) ≠ 0x80 ↔ Cont a := by
  unfold Cont
  rw [← cont_eq a]
  exact Classical.not_not

theorem rd_zero (a : UInt8) (s : Bytes) : rd (a :: s) 0 = .ok a.toNat := rfl
theorem rd_succ (a : UInt8) (s : Bytes) (i : Nat) : rd (a :: s) (i + 1) = rd s i := by simp [rd]
theorem rd_nil (i : Nat) : rd [] i = .ub := rfl

/-- `utf8_charlen` on a text that is not empty: the length of the shaped character it starts with, or an error if there is none. -/
theorem charlen_iff (s : Bytes) (h : s ≠ []) : (∃ n, charlen s = .ok n ∧ n ≤ s.length ∧ Shaped (s.take n)) ∨ (charlen s = .err (-1) ∧ ∀ n, ¬ Shaped (s.take n)) := by
  obtain ⟨a, s, rfl⟩ := List.exists_cons_of_ne_nil h
  unfold charlen
  rw [rd_zero]
  simp only [Res.bind_ok]
  rw [class_eq]
  have lead : ∀ n, Shaped ((a :: s).take n) → ∃ m, n = m + 1 := by
    intro n hn
    cases n with
    | zero => simp at hn; cases hn
    | succ m => exact ⟨m, rfl⟩
  have inv : ∀ t : Bytes, Shaped (a :: t) → (a.toNat < 0x80 ∧ t = []) ∨ (0xC0 ≤ a.toNat ∧ a.toNat < 0xE0 ∧ ∃ b, t = [b] ∧ Cont b) ∨
      (0xE0 ≤ a.toNat ∧ a.toNat < 0xF0 ∧ ∃ b c, t = [b, c] ∧ Cont b ∧ Cont c) ∨ (0xF0 ≤ a.toNat ∧ a.toNat < 0xF8 ∧ ∃ b c d, t = [b, c, d] ∧ Cont b ∧ Cont c ∧ Cont d) := by
    intro t ht
    cases ht with
    | one _ h => exact .inl ⟨h, rfl⟩
    | two _ b h1 h2 h3 => exact .inr (.inl ⟨h1, h2, b, rfl, h3⟩)
    | three _ b c h1 h2 h3 h4 => exact .inr (.inr (.inl ⟨h1, h2, b, c, rfl, h3, h4⟩))
    | four _ b c d h1 h2 h3 h4 h5 => exact .inr (.inr (.inr ⟨h1, h2, b, c, d, rfl, h3, h4, h5⟩))
  have notake : ∀ (P : Bytes → Prop), (∀ t, Shaped (a :: t) → P t) → (∀ m, ¬ P (s.take m)) → ∀ n, ¬ Shaped ((a :: s).take n) := by
    intro P h1 h2 n hn
    obtain ⟨m, rfl⟩ := lead n hn
    rw [List.take_succ_cons] at hn
    exact h2 m (h1 _ hn)
  by_cases h1 : a.toNat < 0x80
  · rw [if_pos h1, if_neg (by decide), if_neg (by simp)]
    exact .inl ⟨1, by simp [contLoop], by simp, .one a h1⟩
  rw [if_neg h1]
  by_cases h2 : a.toNat < 0xC0
  · rw [if_pos h2, if_pos rfl]
    exact .inr ⟨rfl, notake (fun _ => False) (by intro t ht; rcases inv t ht with h | h | h | h <;> omega) (by simp)⟩
  rw [if_neg h2]
  have short : ∀ {k m : Nat} {t : Bytes}, s.take m = t → t.length = k → k ≤ s.length := by
    intro k m t e hk
    have := congrArg List.length e
    rw [List.length_take] at this
    omega
  by_cases h3 : a.toNat < 0xE0
  · rw [if_pos h3, if_neg (by decide)]
    by_cases hl : (a :: s).length > 0 ∧ 2 > (a :: s).length
    · rw [if_pos hl]
      refine .inr ⟨rfl, notake (fun t => ∃ b, t = [b]) ?_ ?_⟩
      · intro t ht; rcases inv t ht with h | ⟨_, _, b, h, _⟩ | h | h
        · omega
        · exact ⟨b, h⟩
        · omega
        · omega
      · rintro m ⟨b, hb⟩; have := short (k := 1) hb rfl; simp at hl; omega
    · rw [if_neg hl]
      match s, hl with
      | b :: s', _ =>
        simp only [contLoop, rd_succ, rd_zero, Res.bind_ok]
        rw [if_pos (by decide)]
        by_cases hb : (b.toNat &&& 0xC0) ≠ 0x80
        · rw [if_pos hb]
          refine .inr ⟨rfl, notake (fun t => ∃ b, t = [b] ∧ Cont b) ?_ ?_⟩
          · intro t ht; rcases inv t ht with h | ⟨_, _, b, h, hc⟩ | h | h
            · omega
            · exact ⟨b, h, hc⟩
            · omega
            · omega
          · rintro m ⟨b', hb', hc⟩
            cases m with
            | zero => cases hb'
            | succ m =>
              rw [List.take_succ_cons] at hb'
              simp only [List.cons.injEq] at hb'
              obtain ⟨rfl, _⟩ := hb'
              exact (cont_iff b).mpr hc hb
        · rw [if_neg hb]
          exact .inl ⟨2, by simp, by simp, .two a b (by omega) h3 ((cont_iff b).mp hb)⟩
      | [], hl => simp at hl
  rw [if_neg h3]
  by_cases h4 : a.toNat < 0xF0
  · rw [if_pos h4, if_neg (by decide)]
    have inv3 : ∀ t, Shaped (a :: t) → ∃ b c, t = [b, c] ∧ Cont b ∧ Cont c := by
      intro t ht; rcases inv t ht with h | h | ⟨_, _, h⟩ | h
      · omega
      · omega
      · exact h
      · omega
    by_cases hl : (a :: s).length > 0 ∧ 3 > (a :: s).length
    · rw [if_pos hl]
      refine .inr ⟨rfl, notake _ inv3 ?_⟩
      rintro m ⟨b, c, hb, _⟩; have := short (k := 2) hb rfl; simp at hl; omega
    · rw [if_neg hl]
      match s, hl with
      | b :: c :: s', _ =>
        simp only [contLoop, rd_succ, rd_zero, Res.bind_ok]
        rw [if_pos (by decide)]
        by_cases hb : (b.toNat &&& 0xC0) ≠ 0x80
        · rw [if_pos hb]
          refine .inr ⟨rfl, notake _ inv3 ?_⟩
          rintro m ⟨b', c', hb', hc, _⟩
          cases m with
          | zero => cases hb'
          | succ m =>
            rw [List.take_succ_cons] at hb'
            simp only [List.cons.injEq] at hb'
            obtain ⟨rfl, _⟩ := hb'
            exact (cont_iff b).mpr hc hb
        · rw [if_neg hb, if_pos (by decide)]
          by_cases hc : (c.toNat &&& 0xC0) ≠ 0x80
          · rw [if_pos hc]
            refine .inr ⟨rfl, notake _ inv3 ?_⟩
            rintro m ⟨b', c', hb', _, hc'⟩
            match m, hb' with
            | m + 2, hb' =>
              rw [List.take_succ_cons, List.take_succ_cons] at hb'
              simp only [List.cons.injEq] at hb'
              obtain ⟨_, rfl, _⟩ := hb'
              exact (cont_iff c).mpr hc' hc
          · rw [if_neg hc]
            exact .inl ⟨3, by simp, by simp, .three a b c (by omega) h4 ((cont_iff b).mp hb) ((cont_iff c).mp hc)⟩
      | [], hl => simp at hl
      | [_], hl => simp at hl
  rw [if_neg h4]
  by_cases h5 : a.toNat < 0xF8
  · rw [if_pos h5, if_neg (by decide)]
    have inv4 : ∀ t, Shaped (a :: t) → ∃ b c d, t = [b, c, d] ∧ Cont b ∧ Cont c ∧ Cont d := by
      intro t ht; rcases inv t ht with h | h | h | ⟨_, _, h⟩
      · omega
      · omega
      · omega
      · exact h
    by_cases hl : (a :: s).length > 0 ∧ 4 > (a :: s).length
    · rw [if_pos hl]
      refine .inr ⟨rfl, notake _ inv4 ?_⟩
      rintro m ⟨b, c, d, hb, _⟩; have := short (k := 3) hb rfl; simp at hl; omega
    · rw [if_neg hl]
      match s, hl with
      | b :: c :: d :: s', _ =>
        simp only [contLoop, rd_succ, rd_zero, Res.bind_ok]
        rw [if_pos (by decide)]
        by_cases hb : (b.toNat &&& 0xC0) ≠ 0x80
        · rw [if_pos hb]
          refine .inr ⟨rfl, notake _ inv4 ?_⟩
          rintro m ⟨b', c', d', hb', hc, _⟩
          cases m with
          | zero => cases hb'
          | succ m =>
            rw [List.take_succ_cons] at hb'
            simp only [List.cons.injEq] at hb'
            obtain ⟨rfl, _⟩ := hb'
            exact (cont_iff b).mpr hc hb
        · rw [if_neg hb, if_pos (by decide)]
          by_cases hc : (c.toNat &&& 0xC0) ≠ 0x80
          · rw [if_pos hc]
            refine .inr ⟨rfl, notake _ inv4 ?_⟩
            rintro m ⟨b', c', d', hb', _, hc', _⟩
            match m, hb' with
            | m + 2, hb' =>
              rw [List.take_succ_cons, List.take_succ_cons] at hb'
              simp only [List.cons.injEq] at hb'
              obtain ⟨_, rfl, _⟩ := hb'
              exact (cont_iff c).mpr hc' hc
          · rw [if_neg hc, if_pos (by decide)]
            by_cases hd : (d.toNat &&& 0xC0) ≠ 0x80
            · rw [if_pos hd]
              refine .inr ⟨rfl, notake _ inv4 ?_⟩
              rintro m ⟨b', c', d', hb', _, _, hc'⟩
              match m, hb' with
              | m + 3, hb' =>
                rw [List.take_succ_cons, List.take_succ_cons, List.take_succ_cons] at hb'
                simp only [List.cons.injEq] at hb'
                obtain ⟨_, _, rfl, _⟩ := hb'
                exact (cont_iff d).mpr hc' hd
            · rw [if_neg hd]
              exact .inl ⟨4, by simp, by simp, .four a b c d (by omega) h5 ((cont_iff b).mp hb) ((cont_iff c).mp hc) ((cont_iff d).mp hd)⟩
      | [], hl => simp at hl
      | [_], hl => simp at hl
      | [_, _], hl => simp at hl
  · rw [if_neg h5, if_pos rfl]
    exact .inr ⟨rfl, notake (fun _ => False) (by intro t ht; rcases inv t ht with h | h | h | h <;> omega) (by simp)⟩

/-- the number the payload bits of a shaped character make -/
def payload : Bytes → Nat
  | [a] => a.toNat
  | [a, b] => (a.toNat % 32) * 64 + b.toNat % 64
  | [a, b, c] => (a.toNat % 16) * 4096 + (b.toNat % 64) * 64 + c.toNat % 64
  | [a, b, c, d] => (a.toNat % 8) * 262144 + (b.toNat % 64) * 4096 + (c.toNat % 64) * 64 + d.toNat % 64
  | _ => 0

theorem m5 (a : Nat) : a &&& 0x1F = a % 32 := Nat.and_two_pow_sub_one_eq_mod a 5
theorem m6 (a : Nat) : a &&& 0x3F = a % 64 := Nat.and_two_pow_sub_one_eq_mod a 6
theorem m4 (a : Nat) : a &&& 0x0F = a % 16 := Nat.and_two_pow_sub_one_eq_mod a 4
theorem m3 (a : Nat) : a &&& 0x07 = a % 8 := Nat.and_two_pow_sub_one_eq_mod a 3
theorem m16 (a : Nat) : a &&& 0xFFFF = a % 65536 := Nat.and_two_pow_sub_one_eq_mod a 16

/-- the shortest form: what the encoding of the payload is -/
def Shortest (t : Bytes) : Prop := (t.length = 2 → 0x80 ≤ payload t) ∧ (t.length = 3 → 0x800 ≤ payload t) ∧ (t.length = 4 → 0x10000 ≤ payload t)

theorem u8 {a : UInt8} {n : Nat} (h : n = a.toNat) : UInt8.ofNat n = a := by subst h; simp

theorem encode_payload {t : Bytes} (h : Shaped t) (hs : Shortest t) : encode (payload t) = t := by
  obtain ⟨h2, h3, h4⟩ := hs
  cases h with
  | one a ha => simp [payload, encode, ha]
  | two a b h1 h5 hb =>
    obtain ⟨b1, b2⟩ := hb
    have h2 := h2 rfl
    simp only [payload] at h2 ⊢
    unfold encode
    rw [if_neg (by omega), if_pos (by omega)]
    simp only [List.map_cons, List.map_nil]
    rw [u8 (a := a) (by omega), u8 (a := b) (by omega)]
  | three a b c h1 h5 hb hc =>
    obtain ⟨b1, b2⟩ := hb
    obtain ⟨c1, c2⟩ := hc
    have h3 := h3 rfl
    simp only [payload] at h3 ⊢
    unfold encode
    rw [if_neg (by omega), if_neg (by omega), if_pos (by omega)]
    simp only [List.map_cons, List.map_nil]
    rw [u8 (a := a) (by omega), u8 (a := b) (by omega), u8 (a := c) (by omega)]
  | four a b c d h1 h5 hb hc hd =>
    obtain ⟨b1, b2⟩ := hb
    obtain ⟨c1, c2⟩ := hc
    obtain ⟨d1, d2⟩ := hd
    have h4 := h4 rfl
    simp only [payload] at h4 ⊢
    unfold encode
    rw [if_neg (by omega), if_neg (by omega), if_neg (by omega)]
    simp only [List.map_cons, List.map_nil]
    rw [u8 (a := a) (by omega), u8 (a := b) (by omega), u8 (a := c) (by omega), u8 (a := d) (by omega)]

theorem ofNat_lt {n : Nat} (h : n < 256) : (UInt8.ofNat n).toNat = n := by rw [UInt8.toNat_ofNat']; omega

theorem encode_spec (v : Nat) (h : v < 0x110000) : Shaped (encode v) ∧ Shortest (encode v) ∧ payload (encode v) = v := by
  unfold encode
  by_cases h1 : v < 0x80
  · rw [if_pos h1]
    exact ⟨.one _ (by rw [ofNat_lt (by omega)]; omega), ⟨by simp, by simp, by simp⟩, ofNat_lt (by omega)⟩
  rw [if_neg h1]
  by_cases h2 : v < 0x800
  · rw [if_pos h2]
    have e : payload (List.map UInt8.ofNat [0xC0 + v / 64, 0x80 + v % 64]) = v := by
      simp only [List.map_cons, List.map_nil, payload]
      rw [ofNat_lt (by omega), ofNat_lt (by omega)]; omega
    refine ⟨.two _ _ ?_ ?_ ⟨?_, ?_⟩, ⟨?_, by simp, by simp⟩, e⟩
    · rw [ofNat_lt (by omega)]; omega
    · rw [ofNat_lt (by omega)]; omega
    · rw [ofNat_lt (by omega)]; omega
    · rw [ofNat_lt (by omega)]; omega
    · intro _; rw [e]; omega
  rw [if_neg h2]
  by_cases h3 : v < 0x10000
  · rw [if_pos h3]
    have e : payload (List.map UInt8.ofNat [0xE0 + v / 4096, 0x80 + v / 64 % 64, 0x80 + v % 64]) = v := by
      simp only [List.map_cons, List.map_nil, payload]
      rw [ofNat_lt (by omega), ofNat_lt (by omega), ofNat_lt (by omega)]; omega
    refine ⟨.three _ _ _ ?_ ?_ ⟨?_, ?_⟩ ⟨?_, ?_⟩, ⟨by simp, ?_, by simp⟩, e⟩
    · rw [ofNat_lt (by omega)]; omega
    · rw [ofNat_lt (by omega)]; omega
    · rw [ofNat_lt (by omega)]; omega
    · rw [ofNat_lt (by omega)]; omega
    · rw [ofNat_lt (by omega)]; omega
    · rw [ofNat_lt (by omega)]; omega
    · intro _; rw [e]; omega
  · rw [if_neg h3]
    have e : payload (List.map UInt8.ofNat [0xF0 + v / 262144, 0x80 + v / 4096 % 64, 0x80 + v / 64 % 64, 0x80 + v % 64]) = v := by
      simp only [List.map_cons, List.map_nil, payload]
      rw [ofNat_lt (by omega), ofNat_lt (by omega), ofNat_lt (by omega), ofNat_lt (by omega)]; omega
    refine ⟨.four _ _ _ _ ?_ ?_ ⟨?_, ?_⟩ ⟨?_, ?_⟩ ⟨?_, ?_⟩, ⟨by simp, by simp, ?_⟩, e⟩
    · rw [ofNat_lt (by omega)]; omega
    · rw [ofNat_lt (by omega)]; omega
    · rw [ofNat_lt (by omega)]; omega
    · rw [ofNat_lt (by omega)]; omega
    · rw [ofNat_lt (by omega)]; omega
    · rw [ofNat_lt (by omega)]; omega
    · rw [ofNat_lt (by omega)]; omega
    · rw [ofNat_lt (by omega)]; omega
    · intro _; rw [e]; omega

/-- what the switch computes -/
theorem codepoint_eq {t : Bytes} (h : Shaped t) (rest : Bytes) : ∃ uc, codepoint (t ++ rest) t.length = .ok uc ∧
    ((Shortest t ∧ Scalar (payload t) ∧ ¬ (0xFDD0 ≤ payload t ∧ payload t < 0xFDF0) ∧ uc = payload t) ∨
     (¬ (Shortest t ∧ Scalar (payload t) ∧ ¬ (0xFDD0 ≤ payload t ∧ payload t < 0xFDF0)) ∧ uc = MINUS1)) := by
  unfold Shortest Scalar
  cases h with
  | one a ha =>
    refine ⟨a.toNat, rfl, .inl ⟨⟨by simp, by simp, by simp⟩, ?_, ?_, rfl⟩⟩
    · simp only [payload]; omega
    · simp only [payload]; omega
  | two a b h1 h5 hb =>
    simp only [List.length_cons, List.length_nil, codepoint, List.cons_append, List.nil_append, rd_zero, rd_succ, Res.bind_ok, m5, m6, Nat.shiftLeft_eq, payload]
    by_cases hc : a.toNat % 32 * 2 ^ 6 + b.toNat % 64 < 0x80
    · rw [if_pos hc]
      refine ⟨_, rfl, .inr ⟨?_, rfl⟩⟩
      rintro ⟨⟨h2, _⟩, _⟩
      have := h2 trivial
      omega
    · rw [if_neg hc]
      refine ⟨_, rfl, .inl ⟨⟨?_, ?_, ?_⟩, ?_, ?_, ?_⟩⟩ <;> omega
  | three a b c h1 h5 hb hc =>
    simp only [List.length_cons, List.length_nil, codepoint, List.cons_append, List.nil_append, rd_zero, rd_succ, Res.bind_ok, m4, m6, Nat.shiftLeft_eq, payload]
    split
    · rename_i hc
      refine ⟨_, rfl, .inr ⟨?_, rfl⟩⟩
      rintro ⟨⟨_, h2, _⟩, _⟩
      have := h2 trivial
      omega
    · rename_i hc
      refine ⟨_, rfl, .inl ⟨⟨?_, ?_, ?_⟩, ?_, ?_, ?_⟩⟩ <;> omega
  | four a b c d h1 h5 hb hc hd =>
    simp only [List.length_cons, List.length_nil, codepoint, List.cons_append, List.nil_append, rd_zero, rd_succ, Res.bind_ok, m3, m6, Nat.shiftLeft_eq, payload]
    split
    · rename_i hc
      refine ⟨_, rfl, .inr ⟨?_, rfl⟩⟩
      rintro ⟨⟨_, _, h2⟩, _⟩
      have := h2 trivial
      omega
    · rename_i hc
      refine ⟨_, rfl, .inl ⟨⟨?_, ?_, ?_⟩, ?_, ?_, ?_⟩⟩ <;> omega

/-- a text starts with at most one shaped character -/
theorem shaped_unique {s : Bytes} {m n : Nat} (hm : Shaped (s.take m)) (hn : Shaped (s.take n)) : s.take m = s.take n := by
  have len : ∀ {a : UInt8} {t u : Bytes}, Shaped (a :: t) → Shaped (a :: u) → t.length = u.length := by
    intro a t u h1 h2
    cases h1 <;> cases h2 <;> first | rfl | omega
  cases s with
  | nil => simp
  | cons a s =>
    match m, n, hm, hn with
    | 0, _, hm, _ => cases hm
    | _, 0, _, hn => cases hn
    | m + 1, n + 1, hm, hn =>
      rw [List.take_succ_cons] at hm hn ⊢
      have := len hm hn
      rw [List.take_succ_cons]
      congr 1
      rw [List.length_take, List.length_take] at this
      rcases Nat.le_total m n with h | h
      · rw [List.take_eq_take_iff]; omega
      · rw [List.take_eq_take_iff]; omega

/-- **C48**: `git_utf8_iterate` on a text that is not empty never reads outside it; it returns a code point exactly when the text starts with the UTF-8
encoding of that code point, which is a Unicode scalar value and not a non-character; otherwise it fails. -/
theorem C48_iterate (s : Bytes) (h : s ≠ []) :
    (∀ n v, iterate s = .ok (n, v) ↔ (Scalar v ∧ ¬ Nonchar v ∧ n = (encode v).length ∧ encode v <+: s)) ∧ ((∃ n v, iterate s = .ok (n, v)) ∨ iterate s = .err (-1)) := by
  unfold iterate
  rcases charlen_iff s h with ⟨n, h1, h2, h3⟩ | ⟨h1, h2⟩
  · rw [h1]
    simp only [Res.bind_ok]
    have hl : (s.take n).length = n := by rw [List.length_take]; omega
    obtain ⟨uc, c1, c2⟩ := codepoint_eq h3 (s.drop n)
    rw [List.take_append_drop, hl] at c1
    rw [c1]
    simp only [Res.bind_ok, m16]
    have start : ∀ v, Scalar v → encode v <+: s → encode v = s.take n := by
      intro v hv hp
      have hs := (encode_spec v hv.1).1
      rw [List.prefix_iff_eq_take.mp hp] at hs
      rw [List.prefix_iff_eq_take.mp hp]
      exact shaped_unique hs h3
    by_cases hbad : uc % 65536 ≥ 0xFFFE
    · rw [if_pos hbad]
      refine ⟨?_, .inr rfl⟩
      intro m v
      constructor
      · intro hh; cases hh
      · rintro ⟨hv, hn, _, hp⟩
        exfalso
        have e := start v hv hp
        obtain ⟨_, e2, e3⟩ := encode_spec v hv.1
        rw [e] at e2 e3
        rcases c2 with ⟨_, _, _, rfl⟩ | ⟨hno, _⟩
        · rw [e3] at hbad; exact hn (.inr hbad)
        · exact hno ⟨e2, by rw [e3]; exact hv, by rw [e3]; exact fun hh => hn (.inl hh)⟩
    · rw [if_neg hbad]
      refine ⟨?_, .inl ⟨n, uc, rfl⟩⟩
      rcases c2 with ⟨g1, g2, g3, rfl⟩ | ⟨_, rfl⟩
      · have hee := encode_payload h3 g1
        intro m v
        constructor
        · intro hh
          cases hh
          refine ⟨g2, ?_, by rw [hee, hl], ?_⟩
          · rintro (hh | hh)
            · exact g3 hh
            · omega
          · rw [hee]; exact List.take_prefix _ _
        · rintro ⟨hv, hn, hm, hp⟩
          have e := start v hv hp
          obtain ⟨_, _, e3⟩ := encode_spec v hv.1
          rw [e] at e3
          rw [hm, e, hl, ← e3]
      · exact absurd (by decide) hbad
  · rw [h1]
    refine ⟨?_, .inr rfl⟩
    intro n v
    constructor
    · intro hh; cases hh
    · rintro ⟨hv, _, _, hp⟩
      have hs := (encode_spec v hv.1).1
      rw [List.prefix_iff_eq_take.mp hp] at hs
      exact absurd hs (h2 _)

/-- On an empty text the first byte is read all the same: callers must not do that. -/
theorem C48_iterate_empty : iterate [] = .ub := rfl

/-- a text cut into shaped characters and single other bytes; the number of pieces -/
inductive Pieces : Bytes → Nat → Prop
  | nil : Pieces [] 0
  | char (t rest : Bytes) (n : Nat) : Shaped t → Pieces rest n → Pieces (t ++ rest) (n + 1)
  | other (c : UInt8) (rest : Bytes) (n : Nat) : (∀ k, ¬ Shaped ((c :: rest).take k)) → Pieces rest n → Pieces (c :: rest) (n + 1)

theorem _root_.Verif.Utf8.Spec.Shaped.pos {t : Bytes} (h : Shaped t) : 0 < t.length := by cases h <;> simp

/-- **C48**: `git_utf8_char_length` counts the characters, a byte that belongs to none counting as one, without reading outside the text. -/
theorem C48_char_length (s : Bytes) : ∃ n, charLength s = .ok n ∧ Pieces s n := by
  have gen : ∀ (fuel : Nat) (s : Bytes) (count : Nat), s.length ≤ fuel → ∃ n, charLengthLoop fuel s count = .ok (count + n) ∧ Pieces s n := by
    intro fuel
    induction fuel with
    | zero =>
      intro s count hf
      have : s = [] := List.length_eq_zero_iff.mp (by omega)
      subst this
      exact ⟨0, rfl, .nil⟩
    | succ fuel ih =>
      intro s count hf
      rw [charLengthLoop]
      cases s with
      | nil => exact ⟨0, rfl, .nil⟩
      | cons c s =>
        rw [if_pos (by simp)]
        rcases charlen_iff (c :: s) (by simp) with ⟨n, h1, h2, h3⟩ | ⟨h1, h2⟩
        · rw [h1]
          have hp := h3.pos
          rw [List.length_take] at hp
          obtain ⟨k, hk1, hk2⟩ := ih ((c :: s).drop n) (count + 1) (by rw [List.length_drop]; omega)
          refine ⟨k + 1, by simp only; rw [hk1]; congr 1; omega, ?_⟩
          have := Pieces.char _ _ _ h3 hk2
          rwa [List.take_append_drop] at this
        · rw [h1]
          obtain ⟨k, hk1, hk2⟩ := ih ((c :: s).drop 1) (count + 1) (by simp at hf ⊢; omega)
          exact ⟨k + 1, by simp only; rw [hk1]; congr 1; omega, .other c s k h2 hk2⟩
  obtain ⟨n, h1, h2⟩ := gen s.length s 0 (Nat.le_refl _)
  exact ⟨n, by rw [charLength, h1, Nat.zero_add], h2⟩

/-- **C48**: `git_utf8_valid_buf_length` gives the longest prefix that consists of shaped characters: what follows it starts with none. -/
theorem C48_valid_buf_length (s : Bytes) : ∃ n, validBufLength s = .ok n ∧ n ≤ s.length ∧ (∃ ts : List Bytes, (∀ t ∈ ts, Shaped t) ∧ s.take n = ts.flatten) ∧
    ∀ k, ¬ Shaped ((s.drop n).take k) := by
  have gen : ∀ (fuel : Nat) (s : Bytes) (off : Nat), s.length ≤ fuel → ∃ n, validLoop fuel s off = .ok (off + n) ∧ n ≤ s.length ∧
      (∃ ts : List Bytes, (∀ t ∈ ts, Shaped t) ∧ s.take n = ts.flatten) ∧ ∀ k, ¬ Shaped ((s.drop n).take k) := by
    intro fuel
    have empty : ∀ off, ∃ n, Res.ok off = Res.ok (off + n) ∧ n ≤ ([] : Bytes).length ∧ (∃ ts : List Bytes, (∀ t ∈ ts, Shaped t) ∧ ([] : Bytes).take n = ts.flatten) ∧ ∀ k, ¬ Shaped ((([] : Bytes).drop n).take k) :=
      fun off => ⟨0, rfl, by simp, ⟨[], by simp, rfl⟩, by intro k h; simp at h; cases h⟩
    induction fuel with
    | zero =>
      intro s off hf
      have : s = [] := List.length_eq_zero_iff.mp (by omega)
      subst this
      exact empty off
    | succ fuel ih =>
      intro s off hf
      rw [validLoop]
      cases s with
      | nil => exact empty off
      | cons c s =>
        rw [if_pos (by simp)]
        rcases charlen_iff (c :: s) (by simp) with ⟨n, h1, h2, h3⟩ | ⟨h1, h2⟩
        · rw [h1]
          have hp := h3.pos
          rw [List.length_take] at hp
          obtain ⟨k, hk1, hk2, ⟨ts, hk3, hk4⟩, hk5⟩ := ih ((c :: s).drop n) (off + n) (by rw [List.length_drop]; omega)
          rw [List.length_drop] at hk2
          refine ⟨n + k, by simp only; rw [hk1]; congr 1; omega, by omega, ⟨(c :: s).take n :: ts, ?_, ?_⟩, ?_⟩
          · intro t ht
            rcases List.mem_cons.mp ht with rfl | ht
            · exact h3
            · exact hk3 t ht
          · rw [List.flatten_cons, ← hk4, List.take_add]
          · intro j
            rw [← List.drop_drop]
            exact hk5 j
        · rw [h1]
          exact ⟨0, rfl, by simp, ⟨[], by simp, rfl⟩, h2⟩
  obtain ⟨n, h1, h2⟩ := gen s.length s 0 (Nat.le_refl _)
  exact ⟨n, by rw [validBufLength, h1, Nat.zero_add], h2⟩

/-- Well-formed text is valid to its end, and its characters are counted. -/
theorem C48_well_formed (vs : List Nat) (h : ∀ v ∈ vs, Scalar v) :
    validBufLength (vs.flatMap encode) = .ok (vs.flatMap encode).length ∧ charLength (vs.flatMap encode) = .ok vs.length := by
  constructor
  · obtain ⟨n, h1, h2, ⟨ts, h3, h4⟩, h5⟩ := C48_valid_buf_length (vs.flatMap encode)
    rw [h1]
    congr 1
    have key : ∀ (vs : List Nat) (ts : List Bytes) (n : Nat), (∀ v ∈ vs, Scalar v) → (∀ t ∈ ts, Shaped t) → n ≤ (vs.flatMap encode).length → (vs.flatMap encode).take n = ts.flatten →
        (∀ k, ¬ Shaped (((vs.flatMap encode).drop n).take k)) → n = (vs.flatMap encode).length := by
      intro vs
      induction vs with
      | nil => intro ts n _ _ hn _ _; simpa using hn
      | cons v vs ih =>
        intro ts n hv ht hn he hs
        have hsv := (encode_spec v (hv v (by simp)).1).1
        have hcons : (v :: vs).flatMap encode = encode v ++ vs.flatMap encode := rfl
        rw [hcons] at hn he hs ⊢
        cases ts with
        | nil =>
          have hn0 : n = 0 := by
            have hp := hsv.pos
            have := congrArg List.length he
            simp only [List.length_take, List.length_append, List.flatten_nil, List.length_nil] at this
            omega
          subst hn0
          have := hs (encode v).length
          rw [List.drop_zero, List.take_left] at this
          exact absurd hsv this
        | cons t ts =>
          have hst := ht t (by simp)
          have hlt : t.length ≤ n := by
            have := congrArg List.length he
            simp only [List.length_take, List.flatten_cons, List.length_append] at this
            omega
          have e1 : (encode v ++ vs.flatMap encode).take t.length = t := by
            have := congrArg (List.take t.length) he
            rwa [List.take_take, Nat.min_eq_left hlt, List.flatten_cons, List.take_left] at this
          have e2 : (encode v ++ vs.flatMap encode).take (encode v).length = encode v := List.take_left
          have htv : t = encode v := by
            have := shaped_unique (s := encode v ++ vs.flatMap encode) (m := t.length) (n := (encode v).length) (by rw [e1]; exact hst) (by rw [e2]; exact hsv)
            rwa [e1, e2] at this
          subst htv
          obtain ⟨m, rfl⟩ : ∃ m, n = (encode v).length + m := ⟨n - (encode v).length, by omega⟩
          rw [List.take_length_add_append, List.flatten_cons] at he
          have := ih ts m (fun w hw => hv w (by simp [hw])) (fun w hw => ht w (by simp [hw])) (by rw [List.length_append] at hn; omega) (List.append_cancel_left he)
            (by intro k; have := hs k; rwa [List.drop_length_add_append] at this)
          rw [List.length_append, ← this]
    exact key vs ts n h h3 h2 h4 h5
  · obtain ⟨n, h1, h2⟩ := C48_char_length (vs.flatMap encode)
    rw [h1]
    congr 1
    have key : ∀ (s : Bytes) (n : Nat), Pieces s n → ∀ vs : List Nat, (∀ v ∈ vs, Scalar v) → s = vs.flatMap encode → n = vs.length := by
      intro s n hp
      induction hp with
      | nil =>
        intro vs hv he
        cases vs with
        | nil => rfl
        | cons v vs =>
          have hsv := (encode_spec v (hv v (by simp)).1).1.pos
          have := congrArg List.length he
          rw [show (v :: vs).flatMap encode = encode v ++ vs.flatMap encode from rfl, List.length_append] at this
          simp at this; omega
      | char t rest n hst _ ih =>
        intro vs hv he
        cases vs with
        | nil =>
          rw [List.flatMap_nil] at he
          have := (List.append_eq_nil_iff.mp he).1
          have hp := hst.pos
          rw [this] at hp
          simp at hp
        | cons v vs =>
          have hsv := (encode_spec v (hv v (by simp)).1).1
          rw [show (v :: vs).flatMap encode = encode v ++ vs.flatMap encode from rfl] at he
          have e1 : (t ++ rest).take t.length = t := List.take_left
          have e2 : (t ++ rest).take (encode v).length = encode v := by rw [he, List.take_left]
          have htv : t = encode v := by
            have := shaped_unique (s := t ++ rest) (m := t.length) (n := (encode v).length) (by rw [e1]; exact hst) (by rw [e2]; exact hsv)
            rwa [e1, e2] at this
          subst htv
          rw [List.length_cons, ih vs (fun w hw => hv w (by simp [hw])) (List.append_cancel_left he)]
      | other c rest n hno _ _ =>
        intro vs hv he
        cases vs with
        | nil => cases he
        | cons v vs =>
          exfalso
          have hsv := (encode_spec v (hv v (by simp)).1).1
          rw [show (v :: vs).flatMap encode = encode v ++ vs.flatMap encode from rfl] at he
          have := hno (encode v).length
          rw [he, List.take_left] at this
          exact this hsv
    exact key _ n h2 vs h rfl

/-! ## Concrete cases, and what the length functions do not check -/

example : iterate (encode 0x20AC ++ b!"xyz") = .ok (3, 0x20AC) := by decide +kernel
example : iterate [0xF0, 0x9F, 0x98, 0x80] = .ok (4, 0x1F600) := by decide +kernel
example : iterate [0xE2, 0x82] = .err (-1) := by decide +kernel
example : charLength [0x24, 0xC0, 0xC1, 0x34] = .ok 4 := by decide +kernel
example : validBufLength [0x24, 0xC2, 0xA2, 0xFF, 0x34] = .ok 3 := by decide +kernel

/-- `git_utf8_valid_buf_length` accepts over-long forms, surrogates and numbers beyond Unicode, which `git_utf8_iterate` refuses. -/
theorem C48_valid_is_not_wellformed :
    validBufLength [0xC0, 0x80] = .ok 2 ∧ iterate [0xC0, 0x80] = .err (-1) ∧ validBufLength [0xED, 0xA0, 0x80] = .ok 3 ∧ iterate [0xED, 0xA0, 0x80] = .err (-1) ∧
    validBufLength [0xF7, 0xBF, 0xBF, 0xBF] = .ok 4 ∧ iterate [0xF7, 0xBF, 0xBF, 0xBF] = .err (-1) := by decide +kernel

end Verif.Utf8
