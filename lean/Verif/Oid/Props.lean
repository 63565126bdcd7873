import Verif.Oid.Lemmas
/-! # C02, C03: object ids as text, and their order -/
namespace Verif.Oid
open Spec

/-! ## C02 -/

/-- C02: `git_oid_from_prefix` accepts exactly the non-empty texts of at most `2*size` hexadecimal digits, and the id it
returns has those digits as its leading nibbles, the rest being zero. -/
theorem C02_from_prefix (size : Nat) (s : Bytes) (len : Nat) (hlen : len ≤ s.length) :
    (∀ id, fromPrefix size s len = .ok id ↔
      (0 < len ∧ len ≤ 2 * size ∧
        ∃ vs, (s.take len).mapM hexVal = some vs ∧ nibbles id = vs ++ List.replicate (2 * size - len) 0)) ∧
    (∀ e, fromPrefix size s len = .err e → e = -1) ∧ fromPrefix size s len ≠ .ub := by
  unfold fromPrefix
  by_cases h0 : len = 0
  · subst h0; simp
  by_cases h1 : 2 * size < len
  · simp only [if_neg h0, if_pos h1]
    refine ⟨?_, by intro e h; simpa using h.symm, by simp⟩
    intro id; simp; intro _ h; omega
  simp only [if_neg h0, if_neg h1]
  cases hm : (s.take len).mapM hexVal with
  | none =>
    have := prefixLoop_err len 0 (List.replicate size 0) s hlen hm
    rw [this]
    refine ⟨?_, by intro e h; simpa using h.symm, by simp⟩
    intro id; simp
  | some vs =>
    obtain ⟨r, h2, h3⟩ := prefixLoop_spec len 0 (List.replicate size 0) s [] vs (2 * size - len)
      (by rw [nibbles_replicate, List.nil_append]; congr 1; omega) rfl hlen hm
    rw [h2]
    rw [List.nil_append] at h3
    refine ⟨?_, by intro e h; simp at h, by simp⟩
    intro id
    constructor
    · intro h
      cases h
      exact ⟨by omega, by omega, vs, rfl, h3⟩
    · rintro ⟨_, _, ws, h5, h6⟩
      cases h5
      rw [nibbles_inj (h3.trans h6.symm)]

/-- C02: the text written by `git_oid_fmt` is the two-digits-per-byte lower-case text of the id, written entirely inside
the id and the output. -/
theorem C02_fmt (id : Bytes) : fmt id.length id = .ok (hex id) := by
  unfold fmt nfmt
  simp only [Nat.lt_irrefl, if_false]
  rw [fmtSubstr_spec id 0 _ (by omega) (.inl rfl)]
  simp [List.take_of_length_le]

/-- C02: every id survives formatting and parsing, whatever follows the text. -/
theorem C02_roundtrip (id : Bytes) (hid : id ≠ []) (suffix : Bytes) :
    ∃ t, fmt id.length id = .ok t ∧ fromPrefix id.length (t ++ suffix) (2 * id.length) = .ok id ∧
      fromString id.length (t ++ 0 :: suffix) = .ok id := by
  refine ⟨hex id, C02_fmt id, ?_, ?_⟩
  · have hpos : 0 < id.length := List.length_pos_iff.mpr hid
    refine ((C02_from_prefix id.length (hex id ++ suffix) (2 * id.length) (by simp)).1 id).2 ⟨by omega, by omega, nibbles id, ?_, by simp⟩
    rw [List.take_append_of_le_length (by simp), List.take_of_length_le (by simp)]
    exact mapM_hexVal_digits _ (nibbles_lt id)
  · have hpos : 0 < id.length := List.length_pos_iff.mpr hid
    have := ((C02_from_prefix id.length (hex id ++ 0 :: suffix) (2 * id.length) (by simp)).1 id).2 ⟨by omega, by omega, nibbles id, (by
      rw [List.take_append_of_le_length (by simp), List.take_of_length_le (by simp)]
      exact mapM_hexVal_digits _ (nibbles_lt id)), by simp⟩
    unfold fromString
    rw [this, Res.bind_ok, List.getElem?_append_right (by simp)]
    simp

/-- C02: `git_oid_from_string` accepts a NUL-terminated text exactly when it consists of `2*size` hexadecimal digits. -/
theorem C02_from_string (size : Nat) (hsize : 0 < size) (t rest : Bytes) (ht : ∀ c ∈ t, c ≠ 0) (id : Bytes)
    (hlong : 2 * size ≤ t.length + rest.length) :
    fromString size (t ++ 0 :: rest) = .ok id ↔ t.length = 2 * size ∧ t.mapM hexVal = some (nibbles id) := by
  have hb := C02_from_prefix size (t ++ 0 :: rest) (2 * size) (by simp; omega)
  have hmapM_nz : ∀ (l : Bytes) vs, l.mapM hexVal = some vs → ∀ c ∈ l, c ≠ 0 := by
    intro l
    induction l with
    | nil => simp
    | cons c l ih =>
      intro vs h
      simp only [List.mapM_cons] at h
      cases hc : hexVal c with
      | none => simp [hc] at h
      | some v =>
        cases hm : List.mapM hexVal l with
        | none => simp [hc, hm] at h
        | some ws =>
          intro d hd
          rcases List.mem_cons.mp hd with rfl | hd
          · exact nz_of_hexVal d (by simp [hc])
          · exact ih ws hm d hd
  unfold fromString
  cases hp : fromPrefix size (t ++ 0 :: rest) (2 * size) with
  | ub => exact absurd hp hb.2.2
  | err e =>
    simp only [Res.bind_err, reduceCtorEq, false_iff, not_and]
    intro hl hm
    have : fromPrefix size (t ++ 0 :: rest) (2 * size) = .ok id := (hb.1 id).2
      ⟨by omega, by omega, nibbles id, by rw [← hl, List.take_left']; exact hm; rfl, by simp⟩
    rw [this] at hp; cases hp
  | ok r =>
    obtain ⟨_, _, vs, h1, h2⟩ := (hb.1 r).1 hp
    simp only [Nat.sub_self, List.replicate_zero, List.append_nil] at h2
    simp only [Res.bind_ok]
    have hge : 2 * size ≤ t.length := by
      refine Nat.le_of_not_lt fun hlt => ?_
      have := hmapM_nz _ _ h1 0 (by
        rw [List.take_append, List.mem_append]
        right
        obtain ⟨k, hk⟩ : ∃ k, 2 * size - t.length = k + 1 := ⟨2 * size - t.length - 1, by omega⟩
        rw [hk]; simp)
      exact this rfl
    by_cases hl : t.length = 2 * size
    · rw [List.getElem?_append_right (by omega)]
      rw [← hl, List.take_left' rfl] at h1
      simp only [hl, Nat.sub_self, List.getElem?_cons_zero, ne_eq, not_true_eq_false, if_false, true_and, h1]
      constructor
      · intro h; cases h; rw [h2]
      · intro h; cases h
        rw [nibbles_inj h2]
    · have hlt : 2 * size < t.length := by omega
      have hnz := ht t[2 * size] (List.getElem_mem ..)
      rw [List.getElem?_append_left hlt, List.getElem?_eq_getElem hlt]
      simp [hnz, hl]

/-- C02: parsing does not depend on letter case. -/
theorem C02_case_insensitive (size : Nat) (s : Bytes) (len : Nat) (hlen : len ≤ s.length) :
    fromPrefix size (s.map upper) len = fromPrefix size s len := by
  have hu : ∀ l : Bytes, (l.map upper).mapM hexVal = l.mapM hexVal := by
    intro l
    induction l with
    | nil => rfl
    | cons c l ih => simp only [List.map_cons, List.mapM_cons, hexVal_upper, ih]
  have h1 := C02_from_prefix size s len hlen
  have h2 := C02_from_prefix size (s.map upper) len (by simpa using hlen)
  rw [← List.map_take, hu] at h2
  cases h : fromPrefix size s len with
  | ok id => exact (h2.1 id).2 ((h1.1 id).1 h)
  | ub => exact absurd h h1.2.2
  | err e =>
    cases h' : fromPrefix size (s.map upper) len with
    | ok id => rw [(h1.1 id).2 ((h2.1 id).1 h')] at h; cases h
    | ub => exact absurd h' h2.2.2
    | err e' => rw [h1.2.1 e h, h2.2.1 e' h']

/-- C02: `git_oid_nfmt` with any `n` writes exactly `n` bytes: the leading digits of the text, then NULs. -/
theorem C02_nfmt (id : Bytes) (n : Nat) :
    nfmt id.length n (some id) = .ok ((hex id).take n ++ List.replicate (n - 2 * id.length) 0) := by
  unfold nfmt
  simp only
  by_cases h : 2 * id.length < n
  · simp only [h, if_true]
    rw [fmtSubstr_spec id 0 _ (by omega) (.inl rfl)]
    simp only [List.drop_zero, Res.bind_ok]
    rw [List.take_of_length_le (by simp), List.take_of_length_le (by simp; omega)]
  · simp only [h, if_false]
    rw [fmtSubstr_spec id 0 _ (by omega) (.inl rfl)]
    simp [show n - 2 * id.length = 0 by omega]

/-- C02: `git_oid_tostr` into a buffer of `n > 0` bytes writes at most `n` bytes: the leading `n-1` digits and a
terminating NUL. -/
theorem C02_tostr (id : Bytes) (n : Nat) (hn : 0 < n) :
    ∃ out, tostr id.length n (some id) = .ok out ∧ out = (hex id).take (n - 1) ++ [0] ∧ out.length ≤ n := by
  unfold tostr
  simp only
  rw [C02_nfmt]
  simp only [Res.bind_ok]
  by_cases h : 2 * id.length + 1 < n
  · simp only [h, if_true]
    refine ⟨_, rfl, ?_, ?_⟩
    · simp only [Nat.add_sub_cancel]
      rw [List.take_of_length_le (by simp), List.take_of_length_le (by simp; omega)]; simp
    · simp; omega
  · simp only [h, if_false]
    refine ⟨_, rfl, ?_, ?_⟩
    · simp [show n - 1 - 2 * id.length = 0 by omega]
    · simp; omega

/-- C02: `git_oid_pathfmt` writes `xx/yyyy…`. -/
theorem C02_pathfmt (id : Bytes) (h : id ≠ []) :
    pathfmt id.length id = .ok ((hex id).take 2 ++ [c!"/"] ++ (hex id).drop 2) := by
  have hpos : 0 < id.length := List.length_pos_iff.mpr h
  unfold pathfmt
  rw [fmtSubstr_spec id 0 2 (by omega) (.inl rfl), fmtSubstr_spec id 2 _ (by omega) (.inl rfl)]
  simp only [Res.bind_ok, List.drop_zero, List.append_assoc, Res.ok.injEq]
  congr 2
  rw [List.take_of_length_le (by simp)]

/-! ## C03 -/

/-- C03: `git_oid_cmp` is the lexicographic order of the raw bytes, which is also the lexicographic order of the hex text. -/
theorem C03_cmp (a b : Bytes) (h : a.length = b.length) :
    ∃ r, cmp a.length a b = .ok r ∧ (r < 0 ↔ hex a < hex b) ∧ (r = 0 ↔ a = b) ∧ (0 < r ↔ hex b < hex a) := by
  obtain ⟨r, h1, h2, h3, h4⟩ := memcmp_spec a.length a b rfl h.symm
  exact ⟨r, h1, by rw [h2, hex_lt_iff], h3, by rw [h4, hex_lt_iff]⟩

/-- C03: and it is a total order: antisymmetric (opposite signs when swapped) and transitive. -/
theorem C03_total_order (a b c : Bytes) (hab : a.length = b.length) (hbc : b.length = c.length) :
    ∃ rab rba rbc rac, cmp a.length a b = .ok rab ∧ cmp a.length b a = .ok rba ∧
      cmp a.length b c = .ok rbc ∧ cmp a.length a c = .ok rac ∧
      (rab < 0 ↔ 0 < rba) ∧ (rab = 0 ↔ rba = 0) ∧ (rab ≤ 0 → rbc ≤ 0 → rac ≤ 0) ∧
      (rab ≤ 0 → rbc < 0 → rac < 0) ∧ (rab < 0 → rbc ≤ 0 → rac < 0) := by
  obtain ⟨r1, h1, h1a, h1b, h1c⟩ := memcmp_spec a.length a b rfl hab.symm
  obtain ⟨r2, h2, h2a, h2b, h2c⟩ := memcmp_spec a.length b a hab.symm rfl
  obtain ⟨r3, h3, h3a, h3b, h3c⟩ := memcmp_spec a.length b c hab.symm (hab.trans hbc).symm
  obtain ⟨r4, h4, h4a, h4b, h4c⟩ := memcmp_spec a.length a c rfl (hab.trans hbc).symm
  refine ⟨r1, r2, r3, r4, h1, h2, h3, h4, ?_, ?_, ?_, ?_, ?_⟩
  · rw [h1a, h2c]
  · rw [h1b, h2b]; exact eq_comm
  · intro g1 g2
    have g1 : r1 < 0 ∨ r1 = 0 := by omega
    have g2 : r3 < 0 ∨ r3 = 0 := by omega
    rw [h1a, h1b] at g1
    rw [h3a, h3b] at g2
    have : r4 < 0 ∨ r4 = 0 := by
      rw [h4a, h4b]
      rcases g1 with g1 | g1 <;> rcases g2 with g2 | g2
      · exact .inl (List.lt_trans g1 g2)
      · exact .inl (g2 ▸ g1)
      · exact .inl (g1 ▸ g2)
      · exact .inr (g1.trans g2)
    omega
  · intro g1 g2
    have g1 : r1 < 0 ∨ r1 = 0 := by omega
    rw [h1a, h1b] at g1
    rw [h3a] at g2
    rw [h4a]
    rcases g1 with g1 | g1
    · exact List.lt_trans g1 g2
    · exact g1 ▸ g2
  · intro g1 g2
    have g2 : r3 < 0 ∨ r3 = 0 := by omega
    rw [h3a, h3b] at g2
    rw [h1a] at g1
    rw [h4a]
    rcases g2 with g2 | g2
    · exact List.lt_trans g1 g2
    · exact g2 ▸ g1

/-- C03: `git_oid_ncmp` over `n` hex digits reports 0 exactly when the first `n` digits of the two texts agree
(`n` beyond the full length means the full length), for odd and even `n`. -/
theorem C03_ncmp (a b : Bytes) (h : a.length = b.length) (n : Nat) :
    ncmp a.length a b n = .ok (if (hex a).take n = (hex b).take n then 0 else 1) := by
  have hh : ∀ m, ((hex a).take m = (hex b).take m) ↔ ((nibbles a).take m = (nibbles b).take m) := by
    intro m
    unfold hex
    rw [← List.map_take, ← List.map_take]
    constructor
    · intro e
      have e := congrArg (List.mapM hexVal) e
      rw [mapM_hexVal_digits _ (fun n hn => nibbles_lt a n (List.mem_of_mem_take hn)),
        mapM_hexVal_digits _ (fun n hn => nibbles_lt b n (List.mem_of_mem_take hn))] at e
      exact Option.some.inj e
    · intro e; rw [e]
  unfold ncmp
  by_cases hn : 2 * a.length < n
  · rw [if_pos hn, ncmpLoop_spec _ _ _ (by omega) (by omega)]
    have := hh (2 * a.length)
    have ha : (hex a).take n = (hex a).take (2 * a.length) := by
      rw [List.take_of_length_le (by simp; omega), List.take_of_length_le (by simp)]
    have hb : (hex b).take n = (hex b).take (2 * a.length) := by
      rw [List.take_of_length_le (by simp; omega), List.take_of_length_le (by simp; omega)]
    rw [ha, hb]
    simp only [this]
  · rw [if_neg hn, ncmpLoop_spec _ _ _ (by omega) (by omega)]
    simp only [hh n]

/-- C03: `git_oid_strcmp` against the text of another id (either case; anything may follow) orders like `git_oid_cmp`. -/
theorem C03_strcmp (a b : Bytes) (h : a.length = b.length) (t rest : Bytes) (ht : t.mapM hexVal = some (nibbles b)) :
    ∃ r, strcmp a (t ++ 0 :: rest) = .ok r ∧ (r < 0 ↔ hex a < hex b) ∧ (r = 0 ↔ a = b) ∧ (0 < r ↔ hex b < hex a) := by
  obtain ⟨r, h1, h2, h3, h4⟩ := strcmpLoop_hex a t b ht h.symm 0 rest
  exact ⟨r, h1, by rw [h2, hex_lt_iff], h3, by rw [h4, hex_lt_iff]⟩

/-- C03: `git_oid_is_zero` is true exactly of the all-zero text. -/
theorem C03_is_zero (id : Bytes) : isZero id = true ↔ hex id = List.replicate (2 * id.length) c!"0" := by
  unfold isZero
  induction id with
  | nil => simp [hex, nibbles]
  | cons b bs ih =>
    have key : ∀ b : UInt8, (b = 0) ↔ (digit (b / 16) = c!"0" ∧ digit (b % 16) = c!"0") := by decide +kernel
    simp only [List.all_cons, Bool.and_eq_true, beq_iff_eq, ih, hex, nibbles, List.map_cons, List.length_cons]
    rw [show 2 * (bs.length + 1) = 2 * bs.length + 1 + 1 by omega, List.replicate_succ, List.replicate_succ]
    simp only [List.cons.injEq]
    rw [key b, and_assoc]

/-! ## concrete cases meeting the hypotheses -/
example : fromPrefix 20 b!"DEADbeef0" 9 = .ok ([0xde, 0xad, 0xbe, 0xef, 0x00] ++ List.replicate 15 0) := by decide +kernel
example : fromPrefix 20 b!"12g4" 4 = .err (-1) := by decide +kernel
example : fmt 2 [0x0a, 0xf0] = .ok b!"0af0" := by decide +kernel
example : ncmp 2 [0xab, 0xcd] [0xab, 0xc0] 3 = .ok 0 ∧ ncmp 2 [0xab, 0xcd] [0xab, 0xc0] 4 = .ok 1 := by decide +kernel
example : (b!"0AF0").mapM hexVal = some (nibbles [0x0a, 0xf0]) := by decide +kernel

end Verif.Oid
