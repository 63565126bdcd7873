import Verif.Base64.Lemmas
/-! # C40: base64 and base85 -/
namespace Verif.Base64
open Spec

theorem ofNat_toNat_eq (c : UInt8) (n : Nat) (h : n = c.toNat) : UInt8.ofNat n = c := by subst h; simp

/-- **C40**: what `git_str_encode_base64` appends is the base64 of RFC 4648, with padding. -/
theorem C40_encode64 (x : Bytes) : encode64 x = base64 x := by
  match x with
  | [] => rfl
  | [a] =>
    have ha := a.toNat_lt
    simp only [encode64, base64, bytes3, digits4, List.map_cons, List.map_nil, List.take_succ_cons, List.take_zero, fst, mid1', List.cons_append, List.nil_append]
    rw [e64 (by omega), e64 (by omega)]
    congr 2
    · simp; omega
    congr 2
    simp; omega
  | [a, b] =>
    have ha := a.toNat_lt
    have hb := b.toNat_lt
    simp only [encode64, base64, bytes3, digits4, List.map_cons, List.map_nil, List.take_succ_cons, List.take_zero, fst, mid1, mid2', List.cons_append, List.nil_append]
    rw [e64 (by omega), e64 (by omega), e64 (by omega)]
    congr 2
    · simp; omega
    congr 2
    · simp; omega
    congr 2
    simp; omega
  | a :: b :: c :: rest =>
    have ha := a.toNat_lt
    have hb := b.toNat_lt
    have hc := c.toNat_lt
    simp only [encode64, base64, bytes3, digits4, List.map_cons, List.map_nil, fst, mid1, mid2, lst, List.cons_append, List.nil_append]
    rw [e64 (by omega), e64 (by omega), e64 (by omega), e64 (by omega), C40_encode64 rest]
    have n1 : ((a.toNat * 256 + b.toNat) * 256 + c.toNat) / 64 / 64 / 64 % 64 = a.toNat / 4 := by omega
    have n2 : ((a.toNat * 256 + b.toNat) * 256 + c.toNat) / 64 / 64 % 64 = a.toNat % 4 * 16 + b.toNat / 16 := by omega
    have n3 : ((a.toNat * 256 + b.toNat) * 256 + c.toNat) / 64 % 64 = b.toNat % 16 * 4 + c.toNat / 64 := by omega
    have n4 : ((a.toNat * 256 + b.toNat) * 256 + c.toNat) % 64 = c.toNat % 64 := by omega
    rw [n1, n2, n3, n4]

theorem group64 {w x y z : UInt8} {a b c d : Nat} (hw : Char64 w a) (hx : Char64 x b) (hy : Char64 y c) (hz : Char64 z d) (t : Bytes) :
    loop64 (w :: x :: y :: z :: t) = (loop64 t >>= fun out => .ok ((toDigits 256 3 (num 64 [a, b, c, d])).map UInt8.ofNat ++ out)) := by
  have lt : ∀ {c v}, Char64 c v → v < 64 := by
    rintro c v (⟨h, _⟩ | ⟨_, rfl⟩)
    · exact h
    · decide
  have la := lt hw; have lb := lt hx; have lc := lt hy; have ld := lt hz
  rw [char64] at hw hx hy hz
  simp only [loop64, hw, hx, hy, hz, Int.toNat_natCast]
  rw [if_neg (by omega), out1 la lb, out2 lc, out3 ld]
  have hd : toDigits 256 3 (num 64 [a, b, c, d]) = [a * 4 + b / 16, b % 16 * 16 + c / 4, c % 4 * 64 + d] := by
    rw [show num 64 [a, b, c, d] = num 256 [a * 4 + b / 16, b % 16 * 16 + c / 4, c % 4 * 64 + d] by simp [num]; omega]
    exact toDigits_num (base := 256) [a * 4 + b / 16, b % 16 * 16 + c / 4, c % 4 * 64 + d] (by simp; omega)
  rw [hd]
  rfl

theorem loop64_iff : ∀ (t out : Bytes), loop64 t = .ok out ↔ Decodes64 t out
  | [], out => by
    constructor
    · intro h; cases h; exact .nil
    · intro h; cases h; rfl
  | [_], out | [_, _], out | [_, _, _], out => by
    constructor
    · intro h; cases h
    · intro h; cases h
  | w :: x :: y :: z :: t, out => by
    constructor
    · intro h
      have hn : ∀ {p q r s : Int}, ¬ (p < 0 ∨ q < 0 ∨ r < 0 ∨ s < 0) → 0 ≤ p ∧ 0 ≤ q ∧ 0 ≤ r ∧ 0 ≤ s := by omega
      have hc : ¬ (dec64.getD w.toNat (-1) < 0 ∨ dec64.getD x.toNat (-1) < 0 ∨ dec64.getD y.toNat (-1) < 0 ∨ dec64.getD z.toNat (-1) < 0) := by
        intro hneg
        simp only [loop64] at h
        rw [if_pos hneg] at h
        cases h
      obtain ⟨h1, h2, h3, h4⟩ := hn hc
      obtain ⟨a, ha⟩ := Int.eq_ofNat_of_zero_le h1
      obtain ⟨b, hb⟩ := Int.eq_ofNat_of_zero_le h2
      obtain ⟨c, hc'⟩ := Int.eq_ofNat_of_zero_le h3
      obtain ⟨d, hd⟩ := Int.eq_ofNat_of_zero_le h4
      have gw := (char64 w a).mpr ha
      have gx := (char64 x b).mpr hb
      have gy := (char64 y c).mpr hc'
      have gz := (char64 z d).mpr hd
      rw [group64 gw gx gy gz] at h
      cases ht : loop64 t with
      | ok o =>
        rw [ht] at h
        cases h
        exact .group w x y z a b c d t o gw gx gy gz ((loop64_iff t o).mp ht)
      | err e => rw [ht] at h; cases h
      | ub => rw [ht] at h; cases h
    · intro h
      cases h with
      | group _ _ _ _ a b c d _ o gw gx gy gz hr =>
        rw [group64 gw gx gy gz, (loop64_iff t o).mpr hr]
        rfl

theorem loop64_defined : ∀ t : Bytes, t.length % 4 = 0 → (∃ out, loop64 t = .ok out) ∨ loop64 t = .err (-1)
  | [], _ => .inl ⟨[], rfl⟩
  | [_], h | [_, _], h | [_, _, _], h => by simp at h
  | w :: x :: y :: z :: t, h => by
    simp only [List.length_cons] at h
    have ih := loop64_defined t (by omega)
    simp only [loop64]
    split
    · exact .inr rfl
    · rcases ih with ⟨o, ho⟩ | ho
      · rw [ho]; exact .inl ⟨_, rfl⟩
      · rw [ho]; exact .inr rfl

/-- **C40**: `git_str_decode_base64` accepts exactly the texts made of groups of four digits (or padding characters), gives exactly the bytes
they stand for, never reads outside, and refuses everything else. -/
theorem C40_decode64 (t : Bytes) :
    (∀ out, decode64 t = .ok out ↔ Decodes64 t out) ∧ ((∃ out, decode64 t = .ok out) ∨ decode64 t = .err (-1)) := by
  unfold decode64
  by_cases h : t.length % 4 = 0
  · rw [if_neg (by omega)]
    exact ⟨loop64_iff t, loop64_defined t h⟩
  · rw [if_pos h]
    refine ⟨?_, .inr rfl⟩
    intro out
    constructor
    · intro hh; cases hh
    · intro hd
      exfalso
      have : ∀ t out, Decodes64 t out → t.length % 4 = 0 := by
        intro t out hd
        induction hd with
        | nil => rfl
        | group => simp only [List.length_cons]; omega
      exact h (this t out hd)

theorem digits_char64 {v : Nat} (h : v < 64) : Char64 (digit64 v) v := .inl ⟨h, rfl⟩
theorem pad_char64 : Char64 (c!"=") 0 := .inr ⟨rfl, rfl⟩

theorem decodes_base64 (x : Bytes) : Decodes64 (base64 x) (x ++ List.replicate ((3 - x.length % 3) % 3) 0) := by
  have three : ∀ a b c : UInt8, (toDigits 256 3 (bytesNum [a, b, c])).map UInt8.ofNat = [a, b, c] := by
    intro a b c
    have := toDigits_num (base := 256) ([a, b, c].map UInt8.toNat) (by intro d hd; obtain ⟨q, _, rfl⟩ := List.mem_map.mp hd; exact q.toNat_lt)
    simp only [List.length_map, List.length_cons, List.length_nil] at this
    rw [bytesNum, this]
    simp
  have val : ∀ n, n < 2 ^ 24 → num 64 [n / 64 / 64 / 64 % 64, n / 64 / 64 % 64, n / 64 % 64, n % 64] = n := by
    intro n hn
    have := num_toDigits (base := 64) 4 n (by omega)
    rwa [digits4] at this
  have lt : ∀ a b c : UInt8, bytesNum [a, b, c] < 2 ^ 24 := by
    intro a b c
    have := bytesNum_lt [a, b, c]
    simp only [List.length_cons, List.length_nil] at this
    omega
  match x with
  | [] => exact .nil
  | [a] =>
    have ha := a.toNat_lt
    have := Decodes64.group (digit64 (a.toNat / 4)) (digit64 (a.toNat % 4 * 16)) c!"=" c!"=" (a.toNat / 4) (a.toNat % 4 * 16) 0 0 [] [] (digits_char64 (by omega)) (digits_char64 (by omega)) pad_char64 pad_char64 .nil
    have e := three a 0 0
    rw [bytes3] at e
    rw [show num 64 [a.toNat / 4, a.toNat % 4 * 16, 0, 0] = (a.toNat * 256 + (0 : UInt8).toNat) * 256 + (0 : UInt8).toNat by simp [num]; omega, e] at this
    rw [← C40_encode64]
    simp only [encode64, fst, mid1']
    rw [e64 (by omega), e64 (by omega)]
    exact this
  | [a, b] =>
    have ha := a.toNat_lt
    have hb := b.toNat_lt
    have := Decodes64.group (digit64 (a.toNat / 4)) (digit64 (a.toNat % 4 * 16 + b.toNat / 16)) (digit64 (b.toNat % 16 * 4)) c!"=" (a.toNat / 4) (a.toNat % 4 * 16 + b.toNat / 16) (b.toNat % 16 * 4) 0 [] [] (digits_char64 (by omega)) (digits_char64 (by omega)) (digits_char64 (by omega)) pad_char64 .nil
    have e := three a b 0
    rw [bytes3] at e
    rw [show num 64 [a.toNat / 4, a.toNat % 4 * 16 + b.toNat / 16, b.toNat % 16 * 4, 0] = (a.toNat * 256 + b.toNat) * 256 + (0 : UInt8).toNat by simp [num]; omega, e] at this
    rw [← C40_encode64]
    simp only [encode64, fst, mid1, mid2']
    rw [e64 (by omega), e64 (by omega), e64 (by omega)]
    exact this
  | a :: b :: c :: rest =>
    have ih := decodes_base64 rest
    have hm : (a :: b :: c :: rest).length % 3 = rest.length % 3 := by simp only [List.length_cons]; omega
    have := Decodes64.group _ _ _ _ _ _ _ _ _ _ (digits_char64 (Nat.mod_lt (bytesNum [a, b, c] / 64 / 64 / 64) (by decide : 0 < 64)))
      (digits_char64 (Nat.mod_lt (bytesNum [a, b, c] / 64 / 64) (by decide : 0 < 64))) (digits_char64 (Nat.mod_lt (bytesNum [a, b, c] / 64) (by decide : 0 < 64)))
      (digits_char64 (Nat.mod_lt (bytesNum [a, b, c]) (by decide : 0 < 64))) ih
    rw [val _ (lt a b c), three] at this
    rw [hm]
    exact this

/-- **C40**: decoding what was encoded gives the original, followed by the zero bytes of the padding: one or two of them when the length is not a multiple
of three.  The decoder does not cut the padding: a caller who needs the exact bytes has to know the length. -/
theorem C40_roundtrip64 (x : Bytes) : decode64 (encode64 x) = .ok (x ++ List.replicate ((3 - x.length % 3) % 3) 0) := by
  rw [C40_encode64]
  exact ((C40_decode64 _).1 _).mpr (decodes_base64 x)

/-- the exact round trip, for the lengths that need no padding -/
theorem C40_roundtrip64_exact (x : Bytes) (h : x.length % 3 = 0) : decode64 (encode64 x) = .ok x := by
  rw [C40_roundtrip64, h]; simp

/-! ## base85 -/

/-- **C40**: what `git_str_encode_base85` appends is base85 of the groups of four bytes. -/
theorem C40_encode85 (x : Bytes) : Base85 x (encode85 x) := by
  match x with
  | [] => rw [encode85]; exact .nil
  | a :: rest =>
    rw [encode85]
    have hacc := acc85_eq ((a :: rest).take 4) 4 0 (by rw [List.length_take]; omega) ⟨0, by simp⟩
    simp only [show 8 * 4 - 8 = 24 by rfl, Nat.zero_add] at hacc
    rw [hacc, digits85_eq, List.append_nil]
    by_cases h4 : 4 ≤ (a :: rest).length
    · have hl : ((a :: rest).take 4).length = 4 := by rw [List.length_take]; omega
      rw [hl]
      have := Base85.full ((a :: rest).take 4) ((a :: rest).drop 4) _ hl (C40_encode85 _)
      rw [List.take_append_drop] at this
      simpa using this
    · rw [List.take_of_length_le (by omega), List.drop_of_length_le (by omega)]
      have h0 : encode85 [] = [] := by rw [encode85]
      rw [h0, List.append_nil]
      exact .last (a :: rest) (by simp) (by omega)
termination_by x.length
decreasing_by simp only [List.length_drop, List.length_cons]; omega

theorem loop85_zero (t : Bytes) : loop85 t 0 = .ok [] := by rw [loop85, dif_pos rfl]

/-- a group that is there: decoded or refused -/
theorem group85_cases (t : Bytes) (h : 5 ≤ t.length) :
    (∃ g vs t', t = g ++ t' ∧ g.length = 5 ∧ List.Forall₂ Char85 g vs ∧ num 85 vs < 2 ^ 32 ∧ group85 t = .ok (num 85 vs, t')) ∨
    (group85 t = .err (-1) ∧ ∀ g vs t', t = g ++ t' → g.length = 5 → List.Forall₂ Char85 g vs → ¬ num 85 vs < 2 ^ 32) := by
  match t, h with
  | a :: b :: c :: d :: e :: t, _ =>
    have uniq : ∀ (g : Bytes) (t' : Bytes), a :: b :: c :: d :: e :: t = g ++ t' → g.length = 5 → g = [a, b, c, d, e] := by
      intro g t' h1 h2
      match g, h2 with
      | [_, _, _, _, _], _ => simp at h1; obtain ⟨rfl, rfl, rfl, rfl, rfl, _⟩ := h1; rfl
    have okc : ∀ ch : UInt8, (dec85.getD ch.toNat (-1) - 1 < 0 ∧ ∀ v, ¬ Char85 ch v) ∨ ∃ v, Char85 ch v := by
      intro ch
      by_cases hn : dec85.getD ch.toNat (-1) - 1 < 0
      · refine .inl ⟨hn, ?_⟩
        intro v hv
        rw [char85] at hv
        omega
      · obtain ⟨v, hv⟩ := Int.eq_ofNat_of_zero_le (by omega : 0 ≤ dec85.getD ch.toNat (-1) - 1)
        exact .inr ⟨v, (char85 ch v).mpr hv⟩
    have nb : ∀ {ch v}, Char85 ch v → ¬ dec85.getD ch.toNat (-1) - 1 < 0 := by
      intro ch v hv
      rw [char85] at hv
      omega
    have bad : (∀ v, ¬ Char85 a v) ∨ (∀ v, ¬ Char85 b v) ∨ (∀ v, ¬ Char85 c v) ∨ (∀ v, ¬ Char85 d v) ∨ (∀ v, ¬ Char85 e v) →
        ∀ g vs t', a :: b :: c :: d :: e :: t = g ++ t' → g.length = 5 → List.Forall₂ Char85 g vs → ¬ num 85 vs < 2 ^ 32 := by
      intro hbad g vs t' h1 h2 h3
      rw [uniq g t' h1 h2] at h3
      cases h3 with
      | cons p1 h3 => cases h3 with
        | cons p2 h3 => cases h3 with
          | cons p3 h3 => cases h3 with
            | cons p4 h3 => cases h3 with
              | cons p5 h3 =>
                rcases hbad with h | h | h | h | h
                · exact absurd p1 (h _)
                · exact absurd p2 (h _)
                · exact absurd p3 (h _)
                · exact absurd p4 (h _)
                · exact absurd p5 (h _)
    rcases okc a with ⟨ha, na⟩ | ⟨va, ha⟩
    · exact .inr ⟨by simp only [group85, four85, if_pos ha, Res.bind_err], bad (.inl na)⟩
    rcases okc b with ⟨hb, nb'⟩ | ⟨vb, hb⟩
    · exact .inr ⟨by simp only [group85, four85, if_neg (nb ha), if_pos hb, Res.bind_err, Res.bind_ok], bad (.inr (.inl nb'))⟩
    rcases okc c with ⟨hc, nc⟩ | ⟨vc, hc⟩
    · exact .inr ⟨by simp only [group85, four85, if_neg (nb ha), if_neg (nb hb), if_pos hc, Res.bind_err, Res.bind_ok], bad (.inr (.inr (.inl nc)))⟩
    rcases okc d with ⟨hd, nd⟩ | ⟨vd, hd⟩
    · exact .inr ⟨by simp only [group85, four85, if_neg (nb ha), if_neg (nb hb), if_neg (nb hc), if_pos hd, Res.bind_err, Res.bind_ok], bad (.inr (.inr (.inr (.inl nd))))⟩
    rcases okc e with ⟨he, ne⟩ | ⟨ve, he⟩
    · exact .inr ⟨by simp only [group85, four85, if_neg (nb ha), if_neg (nb hb), if_neg (nb hc), if_neg (nb hd), if_pos he, Res.bind_err, Res.bind_ok], bad (.inr (.inr (.inr (.inr ne))))⟩
    have hg := group85_eq ha hb hc hd he t
    by_cases hlt : num 85 [va, vb, vc, vd, ve] < 2 ^ 32
    · rw [if_pos hlt] at hg
      exact .inl ⟨[a, b, c, d, e], [va, vb, vc, vd, ve], t, rfl, rfl, .cons ha (.cons hb (.cons hc (.cons hd (.cons he .nil)))), hlt, hg⟩
    · rw [if_neg hlt] at hg
      refine .inr ⟨hg, ?_⟩
      intro g vs t' h1 h2 h3
      rw [uniq g t' h1 h2] at h3
      cases h3 with
      | cons p1 h3 => cases h3 with
        | cons p2 h3 => cases h3 with
          | cons p3 h3 => cases h3 with
            | cons p4 h3 => cases h3 with
              | cons p5 h3 =>
                cases h3
                have same : ∀ {ch v w}, Char85 ch v → Char85 ch w → v = w := by
                  intro ch v w h1 h2
                  rw [char85] at h1 h2
                  omega
                rw [same p1 ha, same p2 hb, same p3 hc, same p4 hd, same p5 he]
                exact hlt

theorem loop85_ok (n : Nat) : ∀ t : Bytes, n ≤ t.length * 4 / 5 → t.length % 5 = 0 →
    (∃ out, loop85 t n = .ok out ∧ ∀ out', Decodes85 t n out' ↔ out' = out) ∨ (loop85 t n = .err (-1) ∧ ∀ out, ¬ Decodes85 t n out) := by
  induction n using Nat.strongRecOn with
  | ind n ih =>
    intro t hn hm
    rw [loop85]
    by_cases h0 : n = 0
    · rw [dif_pos h0]
      subst h0
      left
      refine ⟨[], rfl, ?_⟩
      intro out'
      constructor
      · intro h
        cases h with
        | done => rfl
        | group _ _ _ _ _ _ _ _ h => omega
      · rintro rfl; exact .done t
    · rw [dif_neg h0]
      have hmin : n - min n 4 = n - 4 := by omega
      rcases group85_cases t (by omega) with ⟨g, vs, t', rfl, hl, hf, hlt, hg⟩ | ⟨hg, hbad⟩
      · rw [hg]
        simp only [Res.bind_ok]
        rw [hmin]
        simp only [List.length_append, hl] at hn hm
        have uniq : ∀ g2 vs2 t2, g ++ t' = g2 ++ t2 → g2.length = 5 → List.Forall₂ Char85 g2 vs2 → g2 = g ∧ t2 = t' ∧ vs2 = vs := by
          intro g2 vs2 t2 h1 h2 h3
          obtain ⟨rfl, rfl⟩ := List.append_inj h1 (by omega)
          refine ⟨rfl, rfl, ?_⟩
          clear hlt hg hl h2 h1
          induction hf generalizing vs2 with
          | nil => cases h3; rfl
          | cons p _ ihf =>
            cases h3 with
            | cons q h3 =>
              rw [ihf _ h3]
              have : ∀ {ch v w}, Char85 ch v → Char85 ch w → v = w := by
                intro ch v w h1 h2
                rw [char85] at h1 h2
                omega
              rw [this q p]
        have hb : bytes85 (min n 4) (num 85 vs) = ((toDigits 256 4 (num 85 vs)).map UInt8.ofNat).take n := by
          rw [bytes85_eq _ hlt _ (by omega)]
          rcases Nat.le_total n 4 with h | h
          · rw [Nat.min_eq_left h]
          · rw [Nat.min_eq_right h, List.take_of_length_le (by simp [toDigits_length]), List.take_of_length_le (by simp [toDigits_length]; omega)]
        rcases ih (n - 4) (by omega) t' (by omega) (by omega) with ⟨out, ho, hu⟩ | ⟨ho, hu⟩
        · left
          rw [ho]
          refine ⟨_, rfl, ?_⟩
          intro out'
          constructor
          · intro h
            cases h' : (g ++ t') with
            | nil => have := congrArg List.length h'; simp [hl] at this
            | cons q qs =>
              generalize hs : g ++ t' = s at h
              cases h with
              | done => omega
              | group g2 vs2 t2 o2 _ l2 f2 lt2 p2 d2 =>
                obtain ⟨rfl, rfl, rfl⟩ := uniq g2 vs2 t2 hs l2 f2
                rw [(hu o2).mp d2, hb]
          · rintro rfl
            rw [hb]
            exact .group g vs t' out n hl hf hlt (by omega) ((hu out).mpr rfl)
        · right
          rw [ho]
          refine ⟨rfl, ?_⟩
          intro out' h
          generalize hs : g ++ t' = s at h
          cases h with
          | done => omega
          | group g2 vs2 t2 o2 _ l2 f2 lt2 p2 d2 =>
            obtain ⟨rfl, rfl, rfl⟩ := uniq g2 vs2 t2 hs l2 f2
            exact hu o2 d2
      · right
        rw [hg]
        refine ⟨rfl, ?_⟩
        intro out' h
        cases h with
        | done => omega
        | group g2 vs2 t2 o2 _ l2 f2 lt2 p2 d2 => exact hbad g2 vs2 t2 rfl l2 f2 lt2

/-- **C40**: `git_str_decode_base85` never reads outside the text; it gives the first `n` bytes that the groups of digits stand for, and fails exactly when
the text is not a number of whole groups, is too short for `n`, or has a wrong digit or a group that does not fit 32 bits before the end. -/
theorem C40_decode85 (t : Bytes) (n : Nat) (ht : t.length < 2 ^ 62) :
    (∀ out, decode85 t n = .ok out ↔ (t.length % 5 = 0 ∧ n ≤ t.length * 4 / 5 ∧ Decodes85 t n out)) ∧ ((∃ out, decode85 t n = .ok out) ∨ decode85 t n = .err (-1)) := by
  unfold decode85
  rw [Nat.mod_eq_of_lt (show t.length * 4 < 2 ^ 64 by omega)]
  by_cases h : t.length % 5 ≠ 0 ∨ n > t.length * 4 / 5
  · rw [if_pos h]
    refine ⟨?_, .inr rfl⟩
    intro out
    constructor
    · intro hh; cases hh
    · rintro ⟨h1, h2, _⟩; omega
  · rw [if_neg h]
    have hm : t.length % 5 = 0 := by omega
    have hn : n ≤ t.length * 4 / 5 := by omega
    rcases loop85_ok n t hn hm with ⟨o, ho, hu⟩ | ⟨ho, hu⟩
    · refine ⟨?_, .inl ⟨o, ho⟩⟩
      intro out
      rw [ho]
      constructor
      · intro hh; cases hh; exact ⟨hm, hn, (hu o).mpr rfl⟩
      · rintro ⟨_, _, hd⟩; rw [(hu out).mp hd]
    · refine ⟨?_, .inr ho⟩
      intro out
      rw [ho]
      constructor
      · intro hh; cases hh
      · rintro ⟨_, _, hd⟩; exact absurd hd (hu out)

theorem digits85_forall (n : Nat) : ∀ k, List.Forall₂ Char85 ((toDigits 85 k n).map digit85) (toDigits 85 k n) := by
  intro k
  have : ∀ l : List Nat, (∀ d ∈ l, d < 85) → List.Forall₂ Char85 (l.map digit85) l := by
    intro l
    induction l with
    | nil => intro _; exact .nil
    | cons d l ih => intro h; exact .cons ⟨h d (by simp), rfl⟩ (ih (fun e he => h e (by simp [he])))
  exact this _ (toDigits_lt (by decide) k n)

theorem four_bytes (g : Bytes) (h : g.length = 4) : (toDigits 256 4 (bytesNum g)).map UInt8.ofNat = g := by
  have := toDigits_num (base := 256) (g.map UInt8.toNat) (by intro d hd; obtain ⟨q, _, rfl⟩ := List.mem_map.mp hd; exact q.toNat_lt)
  rw [List.length_map, h] at this
  rw [bytesNum, this, List.map_map]
  conv => rhs; rw [← List.map_id g]
  apply List.map_congr_left
  intro c _
  simp

theorem base85_length {x t : Bytes} (h : Base85 x t) : t.length % 5 = 0 ∧ x.length ≤ t.length * 4 / 5 ∧ t.length ≤ 5 * (x.length / 4) + 5 := by
  induction h with
  | nil => simp
  | full g rest t hg _ ih => simp only [List.length_append, List.length_map, toDigits_length, hg]; omega
  | last g h1 h2 => rw [List.length_map, toDigits_length]; omega

theorem decodes_base85 {x t : Bytes} (h : Base85 x t) : Decodes85 t x.length x := by
  induction h with
  | nil => exact .done []
  | full g rest t hg _ ih =>
    have hlt : bytesNum g < 2 ^ 32 := by have := bytesNum_lt g; rw [hg] at this; exact this
    have hv : num 85 (toDigits 85 5 (bytesNum g)) = bytesNum g := num_toDigits 5 _ (by omega)
    have := Decodes85.group ((toDigits 85 5 (bytesNum g)).map digit85) (toDigits 85 5 (bytesNum g)) t rest (g ++ rest).length (by simp [toDigits_length]) (digits85_forall _ 5)
      (by rw [hv]; exact hlt) (by rw [List.length_append, hg]; omega) (by rw [List.length_append, hg, Nat.add_sub_cancel_left]; exact ih)
    rw [hv, four_bytes g hg, List.take_of_length_le (by simp)] at this
    exact this
  | last g h1 h2 =>
    have hl : (g ++ List.replicate (4 - g.length) (0 : UInt8)).length = 4 := by simp; omega
    have hlt : bytesNum (g ++ List.replicate (4 - g.length) 0) < 2 ^ 32 := by have := bytesNum_lt (g ++ List.replicate (4 - g.length) 0); rw [hl] at this; exact this
    have hv : num 85 (toDigits 85 5 (bytesNum (g ++ List.replicate (4 - g.length) 0))) = bytesNum (g ++ List.replicate (4 - g.length) 0) := num_toDigits 5 _ (by omega)
    have := Decodes85.group ((toDigits 85 5 (bytesNum (g ++ List.replicate (4 - g.length) 0))).map digit85) (toDigits 85 5 (bytesNum (g ++ List.replicate (4 - g.length) 0))) [] [] g.length (by simp [toDigits_length])
      (digits85_forall _ 5) (by rw [hv]; exact hlt) h1 (by rw [show g.length - 4 = 0 by omega]; exact .done [])
    rw [hv, four_bytes _ hl, List.append_nil, List.append_nil, List.take_left] at this
    exact this

/-- **C40**: the round trip, for every byte string. -/
theorem C40_roundtrip85 (x : Bytes) (hx : x.length < 2 ^ 61) : decode85 (encode85 x) x.length = .ok x := by
  have h := C40_encode85 x
  obtain ⟨h1, h2, h3⟩ := base85_length h
  exact ((C40_decode85 _ _ (by omega)).1 x).mpr ⟨h1, h2, decodes_base85 h⟩

/-! ## Concrete cases -/

example : encode64 b!"light w" = b!"bGlnaHQgdw==" := by decide +kernel
example : decode64 b!"bGlnaHQgdw==" = .ok (b!"light w" ++ [0, 0]) := by decide +kernel
example : decode64 b!"bGln aHQ" = .err (-1) := by decide +kernel
example : decode64 b!"bG=n" = .ok [108, 96, 39] := by decide +kernel
example : Decodes64 b!"bGlu" b!"lin" := ((C40_decode64 _).1 _).mp (by decide +kernel)
example : digits85 5 (acc85 b!"this" 24 0) [] = b!"bZBXF" := by decide +kernel
example : bytes85 4 (0x74686973) = b!"this" := by decide +kernel
example : group85 b!"bZBXF!" = .ok (0x74686973, b!"!") := by decide +kernel
example : group85 b!"~~~~~" = .err (-1) := by decide +kernel

end Verif.Base64
