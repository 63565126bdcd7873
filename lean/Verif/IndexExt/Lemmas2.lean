import Verif.IndexExt.Lemmas
/-! # The readers of `REUC` and `NAME` -/
namespace Verif.IndexExt
open Spec
open IndexTree (Cache)
open Strtol.Spec (Number)

/-! ## `REUC` -/

/-- what `readMode` accepts -/
theorem readMode_iff (d a : Bytes) (ha : a ≠ []) (v : Nat) (b : Bytes) (n : Nat) : readMode (d ++ a) d.length = .ok (v, b, n) ↔
    ∃ t, b = t ++ a ∧ n = t.length ∧ Number d 8 v (0 :: t) ∧ v < 2 ^ 32 ∧ t ≠ [] := by
  constructor
  · intro h
    unfold readMode at h
    rw [bind_eq_ok] at h
    obtain ⟨⟨tmp, len⟩, h1, h⟩ := h
    obtain ⟨pre, rest, rfl, rfl, h2, h3, -, -⟩ := (number64_iff _ _ _ _ _).1 h1
    simp only at h
    rw [if_neg (by simpa using h2), bind_eq_ok] at h
    obtain ⟨c, h4, h⟩ := h
    have e1 : (pre ++ rest ++ a).drop pre.length = rest ++ a := by simp
    rw [e1] at h4
    split at h
    · cases h
    rename_i hc
    simp only [ne_eq, Decidable.not_not] at hc
    split at h
    · cases h
    rename_i ht
    split at h
    · cases h
    rename_i hl
    cases rest with
    | nil => simp at hl
    | cons c' t =>
      have hc' : c' = 0 := by
        simp only [List.cons_append, peek, Res.ok.injEq] at h4
        rw [h4, hc]
      subst hc'
      have e2 := advance_append (pre ++ [0]) t a
      have e3 : pre ++ [0] ++ t = pre ++ 0 :: t := by simp
      have e4 : (pre ++ [0]).length = pre.length + 1 := by simp
      rw [e3, e4] at e2
      rw [e2] at h
      simp only [Res.bind_ok, Res.ok.injEq, Prod.mk.injEq] at h
      obtain ⟨rfl, rfl, rfl⟩ := h
      refine ⟨t, rfl, rfl, ?_, by omega, ?_⟩
      · have : ((tmp.toNat : Nat) : Int) = tmp := by omega
        rw [this]; exact h3
      · rintro rfl; simp at hl
  · rintro ⟨t, rfl, rfl, h1, h2, h3⟩
    obtain ⟨pre, rfl, hp⟩ := number_split h1
    unfold readMode
    rw [(number64_iff _ _ _ _ _).2 ⟨pre, 0 :: t, rfl, rfl, hp, h1, by omega, by omega⟩]
    simp only [Res.bind_ok]
    rw [if_neg (by simpa using hp)]
    have e1 : (pre ++ 0 :: t ++ a).drop pre.length = 0 :: t ++ a := by simp
    rw [e1]
    simp only [List.cons_append, peek, Res.bind_ok, ne_eq, not_true_eq_false, if_false]
    rw [if_neg (by omega), if_neg (by
      have : 0 < t.length := List.length_pos_iff.mpr h3
      simp; omega)]
    have e2 := advance_append (pre ++ [0]) t a
    have e3 : pre ++ [0] ++ t = pre ++ 0 :: t := by simp
    have e4 : (pre ++ [0]).length = pre.length + 1 := by simp
    rw [e3, e4] at e2
    rw [e2]
    simp

theorem readMode_ne_ub (d a : Bytes) (ha : a ≠ []) : readMode (d ++ a) d.length ≠ .ub := by
  unfold readMode
  refine bind_ne_ub _ _ (number64_ne_ub _ _ _) ?_
  rintro ⟨tmp, len⟩ h1
  obtain ⟨pre, rest, rfl, rfl, h2, h3, -, -⟩ := (number64_iff _ _ _ _ _).1 h1
  simp only
  rw [if_neg (by simpa using h2)]
  have e1 : (pre ++ rest ++ a).drop pre.length = rest ++ a := by simp
  rw [e1]
  refine bind_ne_ub _ _ ?_ ?_
  · cases hx : rest ++ a with
    | nil => simp [ha] at hx
    | cons c cs => simp [peek]
  · intro c hc
    split
    · simp
    split
    · simp
    split
    · simp
    rename_i hl
    cases rest with
    | nil => simp at hl
    | cons c' t =>
      have e2 := advance_append (pre ++ [c']) t a
      have e3 : pre ++ [c'] ++ t = pre ++ c' :: t := by simp
      have e4 : (pre ++ [c']).length = pre.length + 1 := by simp
      rw [e3, e4] at e2
      rw [e2]
      simp

theorem readOid_iff (d a : Bytes) (m : Nat) (o b : Bytes) (n : Nat) : readOid m (d ++ a) d.length = .ok (o, b, n) ↔
    ∃ f t, b = t ++ a ∧ n = t.length ∧ d = f ++ t ∧ IdText m f o := by
  unfold readOid IdText
  by_cases hm : m = 0
  · simp only [hm, if_true, Res.ok.injEq, Prod.mk.injEq]
    constructor
    · rintro ⟨rfl, rfl, rfl⟩; exact ⟨[], d, rfl, rfl, rfl, rfl, rfl⟩
    · rintro ⟨f, t, rfl, rfl, rfl, rfl, rfl⟩; exact ⟨rfl, by simp, by simp⟩
  · simp only [hm, if_false]
    by_cases hl : d.length < 20
    · rw [if_pos hl]
      constructor
      · intro h; cases h
      · rintro ⟨f, t, rfl, rfl, rfl, rfl, h⟩; simp at hl; omega
    · rw [if_neg hl]
      have hd : d = d.take 20 ++ d.drop 20 := (List.take_append_drop 20 d).symm
      have ht : (d.take 20).length = 20 := by simp; omega
      have e1 : bytesAt (d ++ a) 20 = .ok (d.take 20) := by
        unfold bytesAt
        rw [if_neg (by simp; omega), List.take_append_of_le_length (by omega)]
      have e2 : advance (d ++ a) d.length 20 = .ok (d.drop 20 ++ a, (d.drop 20).length) := by
        have := advance_append (d.take 20) (d.drop 20) a
        rwa [← hd, ht] at this
      rw [e1, e2]
      simp only [Res.bind_ok, Res.ok.injEq, Prod.mk.injEq]
      constructor
      · rintro ⟨rfl, rfl, rfl⟩; exact ⟨d.take 20, d.drop 20, rfl, rfl, hd, rfl, ht⟩
      · rintro ⟨f, t, rfl, rfl, h, rfl, hf⟩
        subst h
        have a1 : (f ++ t).take 20 = f := by rw [← hf]; simp
        have a2 : (f ++ t).drop 20 = t := by rw [← hf]; simp
        rw [a1, a2]; simp

theorem readOid_ne_ub (d a : Bytes) (m : Nat) : readOid m (d ++ a) d.length ≠ .ub := by
  unfold readOid
  split
  · simp
  split
  · simp
  rename_i hl
  have hd : d = d.take 20 ++ d.drop 20 := (List.take_append_drop 20 d).symm
  have ht : (d.take 20).length = 20 := by simp; omega
  have e1 : bytesAt (d ++ a) 20 = .ok (d.take 20) := by
    unfold bytesAt
    rw [if_neg (by simp; omega), List.take_append_of_le_length (by omega)]
  have e2 : advance (d ++ a) d.length 20 = .ok (d.drop 20 ++ a, (d.drop 20).length) := by
    have := advance_append (d.take 20) (d.drop 20) a
    rwa [← hd, ht] at this
  rw [e1, e2]; simp

/-- one entry of the text -/
def OneReuc (d : Bytes) (e : Reuc) (t : Bytes) : Prop :=
  ∃ m0 t0 t1 t2 f0 f1 f2, d = e.path ++ 0 :: m0 ∧ (0 : UInt8) ∉ e.path ∧ Number m0 8 e.mode0 (0 :: t0) ∧ e.mode0 < 2 ^ 32 ∧
    Number t0 8 e.mode1 (0 :: t1) ∧ e.mode1 < 2 ^ 32 ∧ Number t1 8 e.mode2 (0 :: t2) ∧ e.mode2 < 2 ^ 32 ∧ t2 ≠ [] ∧
    t2 = f0 ++ (f1 ++ (f2 ++ t)) ∧ IdText e.mode0 f0 e.oid0 ∧ IdText e.mode1 f1 e.oid1 ∧ IdText e.mode2 f2 e.oid2

theorem readReucOne_iff (d a : Bytes) (ha : a ≠ []) (e : Reuc) (b : Bytes) (n : Nat) : readReucOne (d ++ a) d.length = .ok (e, b, n) ↔
    ∃ t, b = t ++ a ∧ n = t.length ∧ OneReuc d e t := by
  unfold readReucOne
  rcases nul_split d with hd | ⟨s, m0, rfl, hs⟩
  · rw [strnlen_none _ _ hd]
    simp only [Res.bind_ok]
    rw [if_pos (by omega)]
    constructor
    · intro h; cases h
    · rintro ⟨t, -, -, m0, t0, t1, t2, f0, f1, f2, rfl, -⟩
      simp at hd
  · rw [strnlen_some _ _ _ hs]
    simp only [Res.bind_ok]
    by_cases hm : m0 = []
    · rw [if_pos (by simp [hm])]
      constructor
      · intro h; cases h
      · rintro ⟨t, -, -, m0', t0, t1, t2, f0, f1, f2, h1, h2, h3, -⟩
        obtain ⟨-, rfl⟩ := nul_unique h1 hs h2
        exact absurd hm (number_ne_nil h3)
    · rw [if_neg (by
        have : 0 < m0.length := List.length_pos_iff.mpr hm
        simp; omega)]
      have e1 : cstr (s ++ 0 :: m0 ++ a) = .ok s := by
        have := cstr_some s (m0 ++ a) hs
        simpa using this
      rw [e1, advance_nul]
      simp only [Res.bind_ok]
      constructor
      · intro h
        rw [bind_eq_ok] at h
        obtain ⟨⟨v0, b0, n0⟩, g0, h⟩ := h
        obtain ⟨t0, rfl, rfl, a0, c0, -⟩ := (readMode_iff _ _ ha _ _ _).1 g0
        simp only at h
        rw [bind_eq_ok] at h
        obtain ⟨⟨v1, b1, n1⟩, g1, h⟩ := h
        obtain ⟨t1, rfl, rfl, a1, c1, -⟩ := (readMode_iff _ _ ha _ _ _).1 g1
        simp only at h
        rw [bind_eq_ok] at h
        obtain ⟨⟨v2, b2, n2⟩, g2, h⟩ := h
        obtain ⟨t2, rfl, rfl, a2, c2, d2⟩ := (readMode_iff _ _ ha _ _ _).1 g2
        simp only at h
        rw [bind_eq_ok] at h
        obtain ⟨⟨o0, b3, n3⟩, g3, h⟩ := h
        obtain ⟨f0, u0, rfl, rfl, e0, i0⟩ := (readOid_iff _ _ _ _ _ _).1 g3
        simp only at h
        rw [bind_eq_ok] at h
        obtain ⟨⟨o1, b4, n4⟩, g4, h⟩ := h
        obtain ⟨f1, u1, rfl, rfl, e1, i1⟩ := (readOid_iff _ _ _ _ _ _).1 g4
        simp only at h
        rw [bind_eq_ok] at h
        obtain ⟨⟨o2, b5, n5⟩, g5, h⟩ := h
        obtain ⟨f2, u2, rfl, rfl, e2, i2⟩ := (readOid_iff _ _ _ _ _ _).1 g5
        simp only [Res.ok.injEq, Prod.mk.injEq] at h
        obtain ⟨rfl, rfl, rfl⟩ := h
        exact ⟨u2, rfl, rfl, m0, t0, t1, t2, f0, f1, f2, rfl, hs, a0, c0, a1, c1, a2, c2, d2, by rw [e0, e1, e2], i0, i1, i2⟩
      · rintro ⟨t, rfl, rfl, m0', t0, t1, t2, f0, f1, f2, h1, h2, h3, c0, h4, c1, h5, c2, h6, h7, i0, i1, i2⟩
        obtain ⟨rfl, rfl⟩ := nul_unique h1 hs h2
        rw [(readMode_iff _ _ ha _ _ _).2 ⟨t0, rfl, rfl, h3, c0, number_ne_nil h4⟩]
        simp only [Res.bind_ok]
        rw [(readMode_iff _ _ ha _ _ _).2 ⟨t1, rfl, rfl, h4, c1, number_ne_nil h5⟩]
        simp only [Res.bind_ok]
        rw [(readMode_iff _ _ ha _ _ _).2 ⟨t2, rfl, rfl, h5, c2, h6⟩]
        simp only [Res.bind_ok]
        rw [(readOid_iff _ _ _ _ _ _).2 ⟨f0, f1 ++ (f2 ++ t), rfl, rfl, h7, i0⟩]
        simp only [Res.bind_ok]
        rw [(readOid_iff _ _ _ _ _ _).2 ⟨f1, f2 ++ t, rfl, rfl, rfl, i1⟩]
        simp only [Res.bind_ok]
        rw [(readOid_iff _ _ _ _ _ _).2 ⟨f2, t, rfl, rfl, rfl, i2⟩]
        simp

theorem readReucOne_ne_ub (d a : Bytes) (ha : a ≠ []) : readReucOne (d ++ a) d.length ≠ .ub := by
  unfold readReucOne
  rcases nul_split d with hd | ⟨s, m0, rfl, hs⟩
  · rw [strnlen_none _ _ hd]
    simp
  · rw [strnlen_some _ _ _ hs]
    simp only [Res.bind_ok]
    split
    · simp
    have e1 : cstr (s ++ 0 :: m0 ++ a) = .ok s := by
      have := cstr_some s (m0 ++ a) hs
      simpa using this
    rw [e1, advance_nul]
    simp only [Res.bind_ok]
    refine bind_ne_ub _ _ (readMode_ne_ub _ _ ha) ?_
    rintro ⟨v0, b0, n0⟩ g0
    obtain ⟨t0, rfl, rfl, -⟩ := (readMode_iff _ _ ha _ _ _).1 g0
    refine bind_ne_ub _ _ (readMode_ne_ub _ _ ha) ?_
    rintro ⟨v1, b1, n1⟩ g1
    obtain ⟨t1, rfl, rfl, -⟩ := (readMode_iff _ _ ha _ _ _).1 g1
    refine bind_ne_ub _ _ (readMode_ne_ub _ _ ha) ?_
    rintro ⟨v2, b2, n2⟩ g2
    obtain ⟨t2, rfl, rfl, -⟩ := (readMode_iff _ _ ha _ _ _).1 g2
    refine bind_ne_ub _ _ (readOid_ne_ub _ _ _) ?_
    rintro ⟨o0, b3, n3⟩ g3
    obtain ⟨f0, u0, rfl, rfl, -⟩ := (readOid_iff _ _ _ _ _ _).1 g3
    refine bind_ne_ub _ _ (readOid_ne_ub _ _ _) ?_
    rintro ⟨o1, b4, n4⟩ g4
    obtain ⟨f1, u1, rfl, rfl, -⟩ := (readOid_iff _ _ _ _ _ _).1 g4
    refine bind_ne_ub _ _ (readOid_ne_ub _ _ _) ?_
    rintro ⟨o2, b5, n5⟩ g5
    simp

theorem oneReuc_shorter {d t : Bytes} {e : Reuc} (h : OneReuc d e t) : t.length < d.length := by
  obtain ⟨m0, t0, t1, t2, f0, f1, f2, rfl, -, h0, -, h1, -, h2, -, -, rfl, -⟩ := h
  obtain ⟨p0, rfl, -⟩ := number_split h0
  obtain ⟨p1, rfl, -⟩ := number_split h1
  obtain ⟨p2, rfl, -⟩ := number_split h2
  simp; omega

theorem reucLoop_ne_ub (a : Bytes) (ha : a ≠ []) : ∀ fuel (d : Bytes), d.length < fuel → reucLoop fuel (d ++ a) d.length ≠ .ub := by
  intro fuel
  induction fuel with
  | zero => intro d h; omega
  | succ fuel ih =>
    intro d h
    unfold reucLoop
    split
    · simp
    refine bind_ne_ub _ _ (readReucOne_ne_ub _ _ ha) ?_
    rintro ⟨e, b, n⟩ g
    obtain ⟨t, rfl, rfl, ht⟩ := (readReucOne_iff _ _ ha _ _ _).1 g
    refine bind_ne_ub _ _ (ih t (by have := oneReuc_shorter ht; omega)) ?_
    simp

theorem reucText_cons {d t : Bytes} {e : Reuc} {es : List Reuc} (h : OneReuc d e t) (hs : ReucText t es) : ReucText d (e :: es) := by
  obtain ⟨m0, t0, t1, t2, f0, f1, f2, rfl, h0, h1, h2, h3, h4, h5, h6, h7, h8, h9, h10, h11⟩ := h
  exact .cons h0 h1 h2 h3 h4 h5 h6 h7 h8 h9 h10 h11 hs

theorem reucLoop_iff (a : Bytes) (ha : a ≠ []) : ∀ fuel (d : Bytes) (es : List Reuc), d.length < fuel →
    (reucLoop fuel (d ++ a) d.length = .ok es ↔ ReucText d es) := by
  intro fuel
  induction fuel with
  | zero => intro d es h; omega
  | succ fuel ih =>
    intro d es h
    unfold reucLoop
    by_cases hd : d = []
    · subst hd
      simp only [List.length_nil, if_true, Res.ok.injEq]
      constructor
      · rintro rfl; exact .nil
      · intro h
        generalize hx : ([] : Bytes) = x at h
        cases h with
        | nil => rfl
        | cons => simp at hx
    · rw [if_neg (by simpa using hd), bind_eq_ok]
      constructor
      · rintro ⟨⟨e, b, n⟩, g, h'⟩
        obtain ⟨t, rfl, rfl, ht⟩ := (readReucOne_iff _ _ ha _ _ _).1 g
        simp only at h'
        rw [bind_eq_ok] at h'
        obtain ⟨es', g2, h2⟩ := h'
        cases h2
        exact reucText_cons ht ((ih t es' (by have := oneReuc_shorter ht; omega)).1 g2)
      · intro h'
        cases h' with
        | nil => exact absurd rfl hd
        | @cons path m0 v0 v1 v2 t0 t1 t2 f0 f1 f2 o0 o1 o2 rest es h0 h1 h2 h3 h4 h5 h6 h7 h8 h9 h10 h11 h12 =>
          have ht : OneReuc (path ++ 0 :: m0) ⟨path, v0, v1, v2, o0, o1, o2⟩ rest :=
            ⟨m0, t0, t1, t2, f0, f1, f2, rfl, h0, h1, h2, h3, h4, h5, h6, h7, h8, h9, h10, h11⟩
          refine ⟨_, (readReucOne_iff _ _ ha _ _ _).2 ⟨rest, rfl, rfl, ht⟩, ?_⟩
          simp only
          rw [bind_eq_ok]
          exact ⟨es, (ih rest es (by have := oneReuc_shorter ht; omega)).2 h12, rfl⟩

/-! ## `NAME` -/

theorem readName_iff (d a : Bytes) (nm : Option Bytes) (b : Bytes) (n : Nat) : readName (d ++ a) d.length = .ok (nm, b, n) ↔
    ∃ s t, b = t ++ a ∧ n = t.length ∧ d = s ++ 0 :: t ∧ NameText s nm := by
  unfold readName
  rcases nul_split d with hd | ⟨s, t, rfl, hs⟩
  · rw [strnlen_none _ _ hd]
    simp only [Res.bind_ok]
    rw [if_pos (by omega)]
    constructor
    · intro h; cases h
    · rintro ⟨s, t, -, -, rfl, -⟩; simp at hd
  · rw [strnlen_some _ _ _ hs]
    simp only [Res.bind_ok]
    rw [if_neg (by simp)]
    have e1 : bytesAt (s ++ 0 :: t ++ a) (s.length + 1) = .ok (s ++ [0]) := by
      unfold bytesAt
      rw [if_neg (by simp)]
      have : s ++ 0 :: t ++ a = (s ++ [0]) ++ (t ++ a) := by simp
      rw [this, List.take_left' (by simp)]
    rw [advance_nul]
    by_cases he : s = []
    · subst he
      simp only [List.length_nil, Nat.zero_add, if_true, Res.bind_ok, Res.ok.injEq, Prod.mk.injEq]
      constructor
      · rintro ⟨rfl, rfl, rfl⟩; exact ⟨[], t, rfl, rfl, rfl, hs, rfl⟩
      · rintro ⟨s', t', rfl, rfl, h, h1, h2⟩
        obtain ⟨rfl, rfl⟩ := nul_unique h hs h1
        exact ⟨h2.symm, rfl, rfl⟩
    · rw [if_neg (by simpa using he), e1]
      simp only [Res.bind_ok]
      rw [cstr_some s [] hs]
      simp only [Res.bind_ok, Res.ok.injEq, Prod.mk.injEq]
      constructor
      · rintro ⟨rfl, rfl, rfl⟩; exact ⟨s, t, rfl, rfl, rfl, hs, by rw [if_neg he]⟩
      · rintro ⟨s', t', rfl, rfl, h, h1, h2⟩
        obtain ⟨rfl, rfl⟩ := nul_unique h hs h1
        rw [if_neg he] at h2
        exact ⟨h2.symm, rfl, rfl⟩

theorem readName_ne_ub (d a : Bytes) : readName (d ++ a) d.length ≠ .ub := by
  unfold readName
  rcases nul_split d with hd | ⟨s, t, rfl, hs⟩
  · rw [strnlen_none _ _ hd]
    simp
  · rw [strnlen_some _ _ _ hs]
    simp only [Res.bind_ok]
    rw [if_neg (by simp)]
    have e1 : bytesAt (s ++ 0 :: t ++ a) (s.length + 1) = .ok (s ++ [0]) := by
      unfold bytesAt
      rw [if_neg (by simp)]
      have : s ++ 0 :: t ++ a = (s ++ [0]) ++ (t ++ a) := by simp
      rw [this, List.take_left' (by simp)]
    rw [advance_nul]
    split
    · simp
    · rw [e1]
      simp only [Res.bind_ok]
      rw [cstr_some s [] hs]
      simp

/-- one conflict of the text -/
def OneNames (d : Bytes) (n : Name) (t : Bytes) : Prop :=
  ∃ s0 s1 s2, d = s0 ++ 0 :: (s1 ++ 0 :: (s2 ++ 0 :: t)) ∧ NameText s0 n.ancestor ∧ NameText s1 n.ours ∧ NameText s2 n.theirs

theorem readNamesOne_iff (d a : Bytes) (nm : Name) (b : Bytes) (n : Nat) : readNamesOne (d ++ a) d.length = .ok (nm, b, n) ↔
    ∃ t, b = t ++ a ∧ n = t.length ∧ OneNames d nm t := by
  unfold readNamesOne
  constructor
  · intro h
    rw [bind_eq_ok] at h
    obtain ⟨⟨x0, b0, n0⟩, g0, h⟩ := h
    obtain ⟨s0, t0, rfl, rfl, rfl, k0⟩ := (readName_iff _ _ _ _ _).1 g0
    simp only at h
    rw [bind_eq_ok] at h
    obtain ⟨⟨x1, b1, n1⟩, g1, h⟩ := h
    obtain ⟨s1, t1, rfl, rfl, rfl, k1⟩ := (readName_iff _ _ _ _ _).1 g1
    simp only at h
    rw [bind_eq_ok] at h
    obtain ⟨⟨x2, b2, n2⟩, g2, h⟩ := h
    obtain ⟨s2, t2, rfl, rfl, rfl, k2⟩ := (readName_iff _ _ _ _ _).1 g2
    simp only [Res.ok.injEq, Prod.mk.injEq] at h
    obtain ⟨rfl, rfl, rfl⟩ := h
    exact ⟨t2, rfl, rfl, s0, s1, s2, rfl, k0, k1, k2⟩
  · rintro ⟨t, rfl, rfl, s0, s1, s2, rfl, k0, k1, k2⟩
    rw [(readName_iff _ _ _ _ _).2 ⟨s0, _, rfl, rfl, rfl, k0⟩]
    simp only [Res.bind_ok]
    rw [(readName_iff _ _ _ _ _).2 ⟨s1, _, rfl, rfl, rfl, k1⟩]
    simp only [Res.bind_ok]
    rw [(readName_iff _ _ _ _ _).2 ⟨s2, _, rfl, rfl, rfl, k2⟩]
    simp

theorem readNamesOne_ne_ub (d a : Bytes) : readNamesOne (d ++ a) d.length ≠ .ub := by
  unfold readNamesOne
  refine bind_ne_ub _ _ (readName_ne_ub _ _) ?_
  rintro ⟨v0, b0, n0⟩ g0
  obtain ⟨s0, t0, rfl, rfl, -⟩ := (readName_iff _ _ _ _ _).1 g0
  refine bind_ne_ub _ _ (readName_ne_ub _ _) ?_
  rintro ⟨v1, b1, n1⟩ g1
  obtain ⟨s1, t1, rfl, rfl, -⟩ := (readName_iff _ _ _ _ _).1 g1
  refine bind_ne_ub _ _ (readName_ne_ub _ _) ?_
  simp

theorem namesLoop_ne_ub (a : Bytes) : ∀ fuel (d : Bytes), d.length < fuel → namesLoop fuel (d ++ a) d.length ≠ .ub := by
  intro fuel
  induction fuel with
  | zero => intro d h; omega
  | succ fuel ih =>
    intro d h
    unfold namesLoop
    split
    · simp
    refine bind_ne_ub _ _ (readNamesOne_ne_ub _ _) ?_
    rintro ⟨e, b, n⟩ g
    obtain ⟨t, rfl, rfl, s0, s1, s2, rfl, -⟩ := (readNamesOne_iff _ _ _ _ _).1 g
    refine bind_ne_ub _ _ (ih t (by simp at h; omega)) ?_
    simp

theorem namesLoop_iff (a : Bytes) : ∀ fuel (d : Bytes) (es : List Name), d.length < fuel →
    (namesLoop fuel (d ++ a) d.length = .ok es ↔ NamesText d es) := by
  intro fuel
  induction fuel with
  | zero => intro d es h; omega
  | succ fuel ih =>
    intro d es h
    unfold namesLoop
    by_cases hd : d = []
    · subst hd
      simp only [List.length_nil, if_true, Res.ok.injEq]
      constructor
      · rintro rfl; exact .nil
      · intro h
        generalize hx : ([] : Bytes) = x at h
        cases h with
        | nil => rfl
        | cons => simp at hx
    · rw [if_neg (by simpa using hd), bind_eq_ok]
      constructor
      · rintro ⟨⟨⟨x0, x1, x2⟩, b, n⟩, g, h'⟩
        obtain ⟨t, rfl, rfl, s0, s1, s2, rfl, k0, k1, k2⟩ := (readNamesOne_iff _ _ _ _ _).1 g
        simp only at h'
        rw [bind_eq_ok] at h'
        obtain ⟨es', g2, h2⟩ := h'
        cases h2
        exact .cons k0 k1 k2 ((ih t es' (by simp at h; omega)).1 g2)
      · intro h'
        cases h' with
        | nil => exact absurd rfl hd
        | @cons s0 s1 s2 t x0 x1 x2 es k0 k1 k2 k3 =>
          refine ⟨_, (readNamesOne_iff _ _ ⟨x0, x1, x2⟩ _ _).2 ⟨t, rfl, rfl, s0, s1, s2, rfl, k0, k1, k2⟩, ?_⟩
          simp only
          rw [bind_eq_ok]
          exact ⟨es, (ih t es (by simp at h; omega)).2 k3, rfl⟩

end Verif.IndexExt
