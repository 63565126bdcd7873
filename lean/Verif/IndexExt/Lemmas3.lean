import Verif.IndexExt.Lemmas2
/-! # The reader of `TREE` -/
namespace Verif.IndexExt
open Spec
open IndexTree (Cache)
open Strtol.Spec (Number)

/-- the first line of a node -/
def HeadText (d name : Bytes) (count kids : Int) (t : Bytes) : Prop :=
  ∃ b t1, d = name ++ 0 :: b ∧ (0 : UInt8) ∉ name ∧ Number b 10 count (c!" " :: t1) ∧ -(2 ^ 31) ≤ count ∧ count < 2 ^ 31 ∧
    Number t1 10 kids (c!"\n" :: t) ∧ 0 ≤ kids ∧ kids < 2 ^ 31

theorem advance_pre (pre : Bytes) (c : UInt8) (t a : Bytes) :
    advance (pre ++ c :: t ++ a) (pre ++ c :: t).length pre.length = .ok (c :: t ++ a, (c :: t).length) := advance_append pre (c :: t) a

theorem advance_one (c : UInt8) (t a : Bytes) : advance (c :: t ++ a) (c :: t).length 1 = .ok (t ++ a, t.length) := advance_append [c] t a

theorem readHead_iff (d a : Bytes) (ha : a ≠ []) (name : Bytes) (count kids : Int) (b : Bytes) (n : Nat) :
    readHead (d ++ a) d.length = .ok (name, count, kids, b, n) ↔ ∃ t, b = t ++ a ∧ n = t.length ∧ HeadText d name count kids t := by
  unfold readHead
  rcases nul_split d with hd | ⟨s, m0, rfl, hs⟩
  · rw [memchr0_none _ _ hd]
    simp only [Res.bind_ok]
    constructor
    · intro h; cases h
    · rintro ⟨t, -, -, b, t1, rfl, -⟩
      simp at hd
  · rw [memchr0_some _ _ _ hs]
    simp only [Res.bind_ok]
    by_cases hm : m0 = []
    · rw [if_pos (by simp [hm])]
      constructor
      · intro h; cases h
      · rintro ⟨t, -, -, b, t1, h1, h2, h3, -⟩
        obtain ⟨-, rfl⟩ := nul_unique h1 hs h2
        exact absurd hm (number_ne_nil h3)
    · rw [if_neg (by
        have : 0 < m0.length := List.length_pos_iff.mpr hm
        simp; omega)]
      have e1 : cstr (s ++ 0 :: m0 ++ a) = .ok s := by
        have := cstr_some s (m0 ++ a) hs
        simpa using this
      rw [e1, advance_nul]
      simp only [Res.bind_ok]
      constructor
      · intro h
        rw [bind_eq_ok] at h
        obtain ⟨⟨v0, l0⟩, g0, h⟩ := h
        obtain ⟨p0, r0, rfl, rfl, q0, k0, k1, k2⟩ := (number32_iff _ _ _ _ _).1 g0
        simp only at h
        rw [advance_append] at h
        simp only [Res.bind_ok] at h
        rw [bind_eq_ok] at h
        obtain ⟨c, hc, h⟩ := h
        split at h
        · cases h
        rename_i hx
        simp only [not_or, ne_eq, Decidable.not_not] at hx
        obtain ⟨rfl, hx2⟩ := hx
        cases r0 with
        | nil => simp at hx2
        | cons c' t1 =>
          have hc' : c' = c!" " := by simpa [peek] using hc
          subst hc'
          rw [advance_one] at h
          simp only [Res.bind_ok] at h
          rw [bind_eq_ok] at h
          obtain ⟨⟨v1, l1⟩, g1, h⟩ := h
          obtain ⟨p1, r1, rfl, rfl, q1, k3, k4, k5⟩ := (number32_iff _ _ _ _ _).1 g1
          simp only at h
          split at h
          · cases h
          rename_i hk
          rw [advance_append] at h
          simp only [Res.bind_ok] at h
          rw [bind_eq_ok] at h
          obtain ⟨c, hc, h⟩ := h
          split at h
          · cases h
          rename_i hx
          simp only [not_or, ne_eq, Decidable.not_not] at hx
          obtain ⟨rfl, hx2⟩ := hx
          cases r1 with
          | nil => simp at hx2
          | cons c' t =>
            have hc' : c' = c!"\n" := by simpa [peek] using hc
            subst hc'
            rw [advance_one] at h
            simp only [Res.bind_ok, Res.ok.injEq, Prod.mk.injEq] at h
            obtain ⟨rfl, rfl, rfl, rfl, rfl⟩ := h
            exact ⟨t, rfl, rfl, _, _, rfl, hs, k0, k1, k2, k3, by omega, k5⟩
      · rintro ⟨t, rfl, rfl, b, t1, h1, h2, h3, h4, h5, h6, h7, h8⟩
        obtain ⟨rfl, rfl⟩ := nul_unique h1 hs h2
        obtain ⟨p0, rfl, q0⟩ := number_split h3
        obtain ⟨p1, rfl, q1⟩ := number_split h6
        rw [(number32_iff _ _ _ _ _).2 ⟨p0, _, rfl, rfl, q0, h3, h4, h5⟩]
        simp only [Res.bind_ok]
        rw [advance_append]
        simp only [Res.bind_ok, List.cons_append, peek]
        rw [if_neg (by simp [q1])]
        rw [← List.cons_append, advance_one]
        simp only [Res.bind_ok]
        rw [(number32_iff _ _ _ _ _).2 ⟨p1, _, rfl, rfl, q1, h6, by omega, h8⟩]
        simp only [Res.bind_ok]
        rw [if_neg (by omega), advance_append]
        simp only [Res.bind_ok, List.cons_append, peek]
        rw [if_neg (by simp)]
        rw [← List.cons_append, advance_one]
        simp

theorem readHead_ne_ub (d a : Bytes) (ha : a ≠ []) : readHead (d ++ a) d.length ≠ .ub := by
  have hpeek : ∀ r : Bytes, peek (r ++ a) ≠ .ub := by
    intro r
    cases hx : r ++ a with
    | nil => simp [ha] at hx
    | cons c cs => simp [peek]
  unfold readHead
  rcases nul_split d with hd | ⟨s, m0, rfl, hs⟩
  · rw [memchr0_none _ _ hd]
    simp
  · rw [memchr0_some _ _ _ hs]
    simp only [Res.bind_ok]
    split
    · simp
    have e1 : cstr (s ++ 0 :: m0 ++ a) = .ok s := by
      have := cstr_some s (m0 ++ a) hs
      simpa using this
    rw [e1, advance_nul]
    simp only [Res.bind_ok]
    refine bind_ne_ub _ _ (number32_ne_ub _ _ _) ?_
    rintro ⟨v0, l0⟩ g0
    obtain ⟨p0, r0, rfl, rfl, q0, k0, k1, k2⟩ := (number32_iff _ _ _ _ _).1 g0
    simp only
    rw [advance_append]
    simp only [Res.bind_ok]
    refine bind_ne_ub _ _ (hpeek _) ?_
    intro c hc
    split
    · simp
    rename_i hx
    simp only [not_or, ne_eq, Decidable.not_not] at hx
    cases r0 with
    | nil => simp at hx
    | cons c' t1 =>
      rw [advance_one]
      simp only [Res.bind_ok]
      refine bind_ne_ub _ _ (number32_ne_ub _ _ _) ?_
      rintro ⟨v1, l1⟩ g1
      obtain ⟨p1, r1, rfl, rfl, q1, k3, k4, k5⟩ := (number32_iff _ _ _ _ _).1 g1
      simp only
      split
      · simp
      rw [advance_append]
      simp only [Res.bind_ok]
      refine bind_ne_ub _ _ (hpeek _) ?_
      intro c hc
      split
      · simp
      rename_i hx
      simp only [not_or, ne_eq, Decidable.not_not] at hx
      cases r1 with
      | nil => simp at hx
      | cons c' t =>
        rw [advance_one]
        simp

theorem readTreeOid_iff (d a : Bytes) (m : Int) (o b : Bytes) (n : Nat) : readTreeOid m (d ++ a) d.length = .ok (o, b, n) ↔
    ∃ f t, b = t ++ a ∧ n = t.length ∧ d = f ++ t ∧ (if m < 0 then f = [] ∧ o = List.replicate 20 0 else f = o ∧ o.length = 20) := by
  have h := readOid_iff d a (if m < 0 then 0 else 1) o b n
  have e : readTreeOid m (d ++ a) d.length = readOid (if m < 0 then 0 else 1) (d ++ a) d.length := by
    unfold readTreeOid readOid
    by_cases hm : m < 0
    · rw [if_neg (by omega), if_pos hm]; simp
    · rw [if_pos (by omega), if_neg hm]; simp
  rw [e, h]
  unfold IdText
  by_cases hm : m < 0
  · simp [hm]
  · simp [hm]

theorem readTreeOid_ne_ub (d a : Bytes) (m : Int) : readTreeOid m (d ++ a) d.length ≠ .ub := by
  have e : readTreeOid m (d ++ a) d.length = readOid (if m < 0 then 0 else 1) (d ++ a) d.length := by
    unfold readTreeOid readOid
    by_cases hm : m < 0
    · rw [if_neg (by omega), if_pos hm]; simp
    · rw [if_pos (by omega), if_neg hm]; simp
  rw [e]
  exact readOid_ne_ub _ _ _

theorem headText_shorter {d name t : Bytes} {c k : Int} (h : HeadText d name c k t) : t.length < d.length := by
  obtain ⟨b, t1, rfl, -, h1, -, -, h2, -⟩ := h
  obtain ⟨p0, rfl, -⟩ := number_split h1
  obtain ⟨p1, rfl, -⟩ := number_split h2
  simp; omega

mutual
theorem treeText_shorter : ∀ {d : Bytes} {c : Cache} {t : Bytes}, TreeText d c t → t.length < d.length
  | _, _, _, .node h0 h1 h2 h3 h4 h5 h6 h7 _ h9 => by
    have k := kidsText_shorter h9
    obtain ⟨p0, rfl, -⟩ := number_split h1
    obtain ⟨p1, rfl, -⟩ := number_split h4
    subst h7
    simp; omega
theorem kidsText_shorter : ∀ {d : Bytes} {n : Nat} {cs : List Cache} {t : Bytes}, KidsText d n cs t → t.length ≤ d.length
  | _, _, _, _, .zero => Nat.le_refl _
  | _, _, _, _, .succ h1 h2 => by
    have := treeText_shorter h1
    have := kidsText_shorter h2
    omega
end

theorem read_iff (a : Bytes) (ha : a ≠ []) : ∀ fuel,
    (∀ (d : Bytes), 2 * d.length + 1 ≤ fuel → readNode fuel (d ++ a) d.length ≠ .ub ∧ ∀ c b n,
      (readNode fuel (d ++ a) d.length = .ok (c, b, n) ↔ ∃ t, b = t ++ a ∧ n = t.length ∧ TreeText d c t)) ∧
    (∀ (d : Bytes) (k : Nat), 2 * d.length + 2 ≤ fuel → readKids fuel k (d ++ a) d.length ≠ .ub ∧ ∀ cs b n,
      (readKids fuel k (d ++ a) d.length = .ok (cs, b, n) ↔ ∃ t, b = t ++ a ∧ n = t.length ∧ KidsText d k cs t)) := by
  intro fuel
  induction fuel with
  | zero => exact ⟨fun d h => by omega, fun d k h => by omega⟩
  | succ fuel ih =>
    obtain ⟨ih1, ih2⟩ := ih
    constructor
    · intro d hf
      rw [readNode]
      constructor
      · refine bind_ne_ub _ _ (readHead_ne_ub _ _ ha) ?_
        rintro ⟨name, count, kids, b, n⟩ g
        obtain ⟨t, rfl, rfl, ht⟩ := (readHead_iff _ _ ha _ _ _ _ _).1 g
        refine bind_ne_ub _ _ (readTreeOid_ne_ub _ _ _) ?_
        rintro ⟨o, b, n⟩ g2
        obtain ⟨f, t2, rfl, rfl, rfl, h2⟩ := (readTreeOid_iff _ _ _ _ _ _).1 g2
        have := headText_shorter ht
        simp only [List.length_append] at this
        refine bind_ne_ub _ _ (ih2 t2 kids.toNat (by omega)).1 ?_
        simp
      · intro c b n
        constructor
        · intro h
          rw [bind_eq_ok] at h
          obtain ⟨⟨name, count, kids, b1, n1⟩, g, h⟩ := h
          obtain ⟨t, rfl, rfl, ht⟩ := (readHead_iff _ _ ha _ _ _ _ _).1 g
          simp only at h
          rw [bind_eq_ok] at h
          obtain ⟨⟨o, b2, n2⟩, g2, h⟩ := h
          obtain ⟨f, t2, rfl, rfl, rfl, h2⟩ := (readTreeOid_iff _ _ _ _ _ _).1 g2
          simp only at h
          have := headText_shorter ht
          simp only [List.length_append] at this
          rw [bind_eq_ok] at h
          obtain ⟨⟨cs, b3, n3⟩, g3, h⟩ := h
          obtain ⟨t3, rfl, rfl, h3⟩ := ((ih2 t2 kids.toNat (by omega)).2 _ _ _).1 g3
          simp only [Res.ok.injEq, Prod.mk.injEq] at h
          obtain ⟨rfl, rfl, rfl⟩ := h
          obtain ⟨bb, t1, rfl, k1, k2, k3, k4, k5, k6, k7⟩ := ht
          exact ⟨t3, rfl, rfl, .node k1 k2 k3 k4 k5 k6 k7 rfl h2 h3⟩
        · rintro ⟨t, rfl, rfl, ht⟩
          cases ht with
          | @node name bb t1 t2 t3 f oid rest count kids cs h0 h1 h2 h3 h4 h5 h6 h7 h8 h9 =>
            subst h7
            have hh : HeadText (name ++ 0 :: bb) name count kids (f ++ t3) := ⟨bb, t1, rfl, h0, h1, h2, h3, h4, h5, h6⟩
            have := headText_shorter hh
            simp only [List.length_append] at this
            rw [(readHead_iff _ _ ha _ _ _ _ _).2 ⟨_, rfl, rfl, hh⟩]
            simp only [Res.bind_ok]
            rw [(readTreeOid_iff _ _ _ _ _ _).2 ⟨f, t3, rfl, rfl, rfl, h8⟩]
            simp only [Res.bind_ok]
            rw [((ih2 t3 kids.toNat (by simp at hf ⊢; simp at this; omega)).2 _ _ _).2 ⟨t, rfl, rfl, h9⟩]
            simp
    · intro d k hf
      cases k with
      | zero =>
        rw [readKids]
        · refine ⟨by simp, fun cs b n => ?_⟩
          simp only [Res.ok.injEq, Prod.mk.injEq]
          constructor
          · rintro ⟨rfl, rfl, rfl⟩; exact ⟨d, rfl, rfl, .zero⟩
          · rintro ⟨t, rfl, rfl, h⟩; cases h; exact ⟨rfl, rfl, rfl⟩
      | succ k =>
        rw [readKids]
        constructor
        · refine bind_ne_ub _ _ (ih1 d (by omega)).1 ?_
          rintro ⟨c, b, n⟩ g
          obtain ⟨t, rfl, rfl, ht⟩ := ((ih1 d (by omega)).2 _ _ _).1 g
          have := treeText_shorter ht
          refine bind_ne_ub _ _ (ih2 t k (by omega)).1 ?_
          simp
        · intro cs b n
          constructor
          · intro h
            rw [bind_eq_ok] at h
            obtain ⟨⟨c, b1, n1⟩, g, h⟩ := h
            obtain ⟨t, rfl, rfl, ht⟩ := ((ih1 d (by omega)).2 _ _ _).1 g
            simp only at h
            have := treeText_shorter ht
            rw [bind_eq_ok] at h
            obtain ⟨⟨cs', b2, n2⟩, g2, h⟩ := h
            obtain ⟨t2, rfl, rfl, h2⟩ := ((ih2 t k (by omega)).2 _ _ _).1 g2
            simp only [Res.ok.injEq, Prod.mk.injEq] at h
            obtain ⟨rfl, rfl, rfl⟩ := h
            exact ⟨t2, rfl, rfl, .succ ht h2⟩
          · rintro ⟨t, rfl, rfl, h⟩
            cases h with
            | @succ _ b' _ _ c cs h1 h2 =>
              have := treeText_shorter h1
              rw [((ih1 d (by omega)).2 _ _ _).2 ⟨b', rfl, rfl, h1⟩]
              simp only [Res.bind_ok]
              rw [((ih2 b' k (by omega)).2 _ _ _).2 ⟨t, rfl, rfl, h2⟩]
              simp

end Verif.IndexExt
