import Verif.Xdiff.Lemmas3
/-! # Divide and conquer leaves the same lines in both files -/
namespace Verif.Xdiff

/-- the classes of the compared lines from `a` up to `b` that are not marked -/
def K (h x : List Nat) (r : List Bool) (a b : Nat) : List Nat := ((List.range' a (b - a)).filter fun j => !r.getD (x.getD j 0) false).map fun j => h.getD j 0

theorem K_self {h x : List Nat} {r : List Bool} {a : Nat} : K h x r a a = [] := by simp [K]

theorem K_split {h x : List Nat} {r : List Bool} {a m b : Nat} (h1 : a ≤ m) (h2 : m ≤ b) : K h x r a b = K h x r a m ++ K h x r m b := by
  unfold K
  rw [← List.map_append, ← List.filter_append]
  congr 2
  rw [show b - a = (m - a) + (b - m) by omega, ← List.range'_append, show a + 1 * (m - a) = m by omega]

theorem K_congr {h x : List Nat} {r r' : List Bool} {a b : Nat} (he : ∀ j, a ≤ j → j < b → r.getD (x.getD j 0) false = r'.getD (x.getD j 0) false) : K h x r a b = K h x r' a b := by
  unfold K
  congr 1
  apply List.filter_congr
  intro j hj
  rw [List.mem_range'_1] at hj
  rw [he j hj.1 (by omega)]

theorem K_marked {h x : List Nat} {r : List Bool} {a b : Nat} (he : ∀ j, a ≤ j → j < b → r.getD (x.getD j 0) false = true) : K h x r a b = [] := by
  unfold K
  rw [List.map_eq_nil_iff, List.filter_eq_nil_iff]
  intro j hj
  rw [List.mem_range'_1] at hj
  rw [he j hj.1 (by omega)]
  simp

theorem K_one {h x : List Nat} {r : List Bool} {a : Nat} (he : r.getD (x.getD a 0) false = false) : K h x r a (a + 1) = [h.getD a 0] := by
  have e : K h x r a (a + 1) = ((List.range' a 1).filter fun j => !r.getD (x.getD j 0) false).map fun j => h.getD j 0 := by
    unfold K; rw [show a + 1 - a = 1 by omega]
  rw [e, show List.range' a 1 = [a] from rfl, List.filter_cons, he]
  rfl

/-- lines that match are the same -/
theorem K_match {h1 x1 h2 x2 : List Nat} {r1 r2 : List Bool} : ∀ (n a b : Nat), (∀ j, j < n → h1.getD (a + j) 0 = h2.getD (b + j) 0) → (∀ j, j < n → r1.getD (x1.getD (a + j) 0) false = false) →
    (∀ j, j < n → r2.getD (x2.getD (b + j) 0) false = false) → K h1 x1 r1 a (a + n) = K h2 x2 r2 b (b + n) := by
  intro n
  induction n with
  | zero => intro a b _ _ _; rw [Nat.add_zero, Nat.add_zero, K_self, K_self]
  | succ n ih =>
    intro a b he hr1 hr2
    rw [K_split (m := a + 1) (by omega) (by omega), K_split (a := b) (m := b + 1) (by omega) (by omega), K_one (a := a) (hr1 0 (by omega)), K_one (a := b) (hr2 0 (by omega)),
      show a + (n + 1) = a + 1 + n by omega, show b + (n + 1) = b + 1 + n by omega,
      ih (a + 1) (b + 1) (fun j hj => by have := he (j + 1) (by omega); rwa [show a + (j + 1) = a + 1 + j by omega, show b + (j + 1) = b + 1 + j by omega] at this)
        (fun j hj => by have := hr1 (j + 1) (by omega); rwa [show a + (j + 1) = a + 1 + j by omega] at this)
        (fun j hj => by have := hr2 (j + 1) (by omega); rwa [show b + (j + 1) = b + 1 + j by omega] at this)]
    have := he 0 (by omega)
    simp only [Nat.add_zero] at this
    rw [this]

theorem front_eq {h1 h2 : List Nat} {lim1 lim2 : Nat} : ∀ (n a b : Nat), lim1 - a ≤ n → a ≤ lim1 → b ≤ lim2 → ∃ k, front h1 h2 lim1 lim2 n a b = (a + k, b + k) ∧ a + k ≤ lim1 ∧ b + k ≤ lim2 ∧
    (∀ j, j < k → h1.getD (a + j) 0 = h2.getD (b + j) 0) ∧ (a + k < lim1 → b + k < lim2 → h1.getD (a + k) 0 ≠ h2.getD (b + k) 0) := by
  intro n
  induction n with
  | zero =>
    intro a b hn ha hb
    exact ⟨0, rfl, by omega, by omega, by intro j hj; omega, by intro h; omega⟩
  | succ n ih =>
    intro a b hn ha hb
    rw [front]
    split
    · rename_i h
      obtain ⟨k, e, h1, h2, h3, h4⟩ := ih (a + 1) (b + 1) (by omega) (by omega) (by omega)
      refine ⟨k + 1, ?_, by omega, by omega, ?_, ?_⟩
      · rw [e, show a + 1 + k = a + (k + 1) by omega, show b + 1 + k = b + (k + 1) by omega]
      · intro j hj
        cases j with
        | zero => exact h.2.2
        | succ j =>
          have := h3 j (by omega)
          rwa [show a + 1 + j = a + (j + 1) by omega, show b + 1 + j = b + (j + 1) by omega] at this
      · rw [show a + (k + 1) = a + 1 + k by omega, show b + (k + 1) = b + 1 + k by omega]; exact h4
    · rename_i h
      exact ⟨0, rfl, ha, hb, by intro j hj; omega, fun h1 h2 h3 => h ⟨h1, h2, h3⟩⟩

theorem rear_eq {h1 h2 : List Nat} {off1 off2 : Nat} : ∀ (n a b : Nat), a - off1 ≤ n → off1 ≤ a → off2 ≤ b → ∃ k, rear h1 h2 off1 off2 n a b = (a - k, b - k) ∧ k ≤ a ∧ k ≤ b ∧ off1 ≤ a - k ∧ off2 ≤ b - k ∧
    (∀ j, j < k → h1.getD (a - k + j) 0 = h2.getD (b - k + j) 0) ∧ (off1 < a - k → off2 < b - k → h1.getD (a - k - 1) 0 ≠ h2.getD (b - k - 1) 0) := by
  intro n
  induction n with
  | zero =>
    intro a b hn ha hb
    exact ⟨0, rfl, by omega, by omega, by omega, by omega, by intro j hj; omega, by intro h; omega⟩
  | succ n ih =>
    intro a b hn ha hb
    rw [rear]
    split
    · rename_i h
      obtain ⟨k, e, h1, h2, h3, h4, h5, h6⟩ := ih (a - 1) (b - 1) (by omega) (by omega) (by omega)
      have e1 : a - 1 - k = a - (k + 1) := by omega
      have e2 : b - 1 - k = b - (k + 1) := by omega
      rw [e1] at e h3 h5 h6
      rw [e2] at e h4 h5 h6
      refine ⟨k + 1, e, by omega, by omega, by omega, by omega, ?_, h6⟩
      intro j hj
      by_cases hjk : j = k
      · subst hjk
        rw [show a - (j + 1) + j = a - 1 by omega, show b - (j + 1) + j = b - 1 by omega]
        exact h.2.2
      · exact h5 j (by omega)
    · rename_i h
      exact ⟨0, rfl, by omega, by omega, by omega, by omega, by intro j hj; omega, fun h1 h2 h3 => h ⟨h1, h2, h3⟩⟩

theorem foldl_set_length : ∀ (l : List Nat) (r : List Bool), (l.foldl (fun r i => r.set i true) r).length = r.length := by
  intro l
  induction l with
  | nil => intro r; rfl
  | cons a l ih => intro r; rw [List.foldl_cons, ih, List.length_set]

theorem foldl_set_out : ∀ (l : List Nat) (r : List Bool) (i : Nat), i ∉ l → (l.foldl (fun r i => r.set i true) r).getD i false = r.getD i false := by
  intro l
  induction l with
  | nil => intro r i _; rfl
  | cons a l ih =>
    intro r i hi
    rw [List.mem_cons, not_or] at hi
    rw [List.foldl_cons, ih _ _ hi.2, List.getD_eq_getElem?_getD, List.getD_eq_getElem?_getD, List.getElem?_set_ne (fun h => hi.1 h.symm)]

theorem foldl_set_in : ∀ (l : List Nat) (r : List Bool) (i : Nat), i ∈ l → i < r.length → (l.foldl (fun r i => r.set i true) r).getD i false = true := by
  intro l
  induction l with
  | nil => intro r i h; cases h
  | cons a l ih =>
    intro r i hi hr
    rw [List.foldl_cons]
    by_cases h : i ∈ l
    · exact ih _ _ h (by rw [List.length_set]; exact hr)
    · have : i = a := by simpa [h] using hi
      subst this
      rw [foldl_set_out _ _ _ h, List.getD_eq_getElem?_getD, List.getElem?_set_self hr]
      rfl

theorem mem_seg {x : List Nat} {a b i : Nat} (hb : b ≤ x.length) : i ∈ (x.take b).drop a ↔ ∃ j, a ≤ j ∧ j < b ∧ x.getD j 0 = i := by
  rw [List.mem_iff_getElem?]
  constructor
  · rintro ⟨k, hk⟩
    rw [List.getElem?_drop] at hk
    have hlt : a + k < (x.take b).length := by
      rcases Nat.lt_or_ge (a + k) (x.take b).length with h | h
      · exact h
      · rw [List.getElem?_eq_none h] at hk; cases hk
    rw [List.length_take] at hlt
    rw [List.getElem?_take_of_lt (by omega)] at hk
    exact ⟨a + k, by omega, by omega, by rw [List.getD_eq_getElem?_getD, hk]; rfl⟩
  · rintro ⟨j, h1, h2, rfl⟩
    refine ⟨j - a, ?_⟩
    rw [List.getElem?_drop, show a + (j - a) = j by omega, List.getElem?_take_of_lt h2, List.getD_eq_getElem?_getD, List.getElem?_eq_getElem (by omega)]
    rfl

/-- the lines that are compared: different lines of the file -/
structure Index (x : List Nat) (n : Nat) : Prop where
  inj : ∀ i j, i < x.length → j < x.length → x.getD i 0 = x.getD j 0 → i = j
  lt : ∀ i, i < x.length → x.getD i 0 < n

/-- what `recsCmp` does -/
structure Done (h1 h2 x1 x2 : List Nat) (off1 lim1 off2 lim2 : Nat) (r r' : List Bool × List Bool) : Prop where
  l1 : r'.1.length = r.1.length
  l2 : r'.2.length = r.2.length
  o1 : ∀ i, (∀ j, off1 ≤ j → j < lim1 → x1.getD j 0 ≠ i) → r'.1.getD i false = r.1.getD i false
  o2 : ∀ i, (∀ j, off2 ≤ j → j < lim2 → x2.getD j 0 ≠ i) → r'.2.getD i false = r.2.getD i false
  k : K h1 x1 r'.1 off1 lim1 = K h2 x2 r'.2 off2 lim2

/-- what is the same before and after does not change it -/
theorem Done.widen {h1 h2 x1 x2 : List Nat} {r r' : List Bool × List Bool} {off1 lim1 off2 lim2 a e : Nat} (i1 : Index x1 r.1.length) (i2 : Index x2 r.2.length)
    (hx1 : x1.length = h1.length) (hx2 : x2.length = h2.length) (hl1 : lim1 ≤ h1.length) (hl2 : lim2 ≤ h2.length)
    (p1 : ∀ j, off1 ≤ j → j < lim1 → r.1.getD (x1.getD j 0) false = false) (p2 : ∀ j, off2 ≤ j → j < lim2 → r.2.getD (x2.getD j 0) false = false)
    (ha : off1 + a ≤ lim1 - e) (hb : off2 + a ≤ lim2 - e) (he1 : e ≤ lim1) (he2 : e ≤ lim2)
    (hf : ∀ j, j < a → h1.getD (off1 + j) 0 = h2.getD (off2 + j) 0) (hr : ∀ j, j < e → h1.getD (lim1 - e + j) 0 = h2.getD (lim2 - e + j) 0)
    (d : Done h1 h2 x1 x2 (off1 + a) (lim1 - e) (off2 + a) (lim2 - e) r r') : Done h1 h2 x1 x2 off1 lim1 off2 lim2 r r' := by
  obtain ⟨l1, l2, o1, o2, hk⟩ := d
  have out1 : ∀ j, j < off1 + a ∨ lim1 - e ≤ j → off1 ≤ j → j < lim1 → r'.1.getD (x1.getD j 0) false = false := by
    intro j hj h1' h2'
    rw [o1 _ (fun k hk1 hk2 hk3 => by have := i1.inj k j (by omega) (by omega) hk3; omega)]
    exact p1 j h1' h2'
  have out2 : ∀ j, j < off2 + a ∨ lim2 - e ≤ j → off2 ≤ j → j < lim2 → r'.2.getD (x2.getD j 0) false = false := by
    intro j hj h1' h2'
    rw [o2 _ (fun k hk1 hk2 hk3 => by have := i2.inj k j (by omega) (by omega) hk3; omega)]
    exact p2 j h1' h2'
  refine ⟨l1, l2, fun i hi => o1 i fun j hj1 hj2 => hi j (by omega) (by omega), fun i hi => o2 i fun j hj1 hj2 => hi j (by omega) (by omega), ?_⟩
  rw [K_split (m := off1 + a) (by omega) (by omega), K_split (a := off1 + a) (m := lim1 - e) (by omega) (by omega),
    K_split (a := off2) (m := off2 + a) (by omega) (by omega), K_split (a := off2 + a) (m := lim2 - e) (by omega) (by omega), hk]
  congr 1
  · exact K_match a off1 off2 hf (fun j hj => out1 _ (.inl (by omega)) (by omega) (by omega)) (fun j hj => out2 _ (.inl (by omega)) (by omega) (by omega))
  · congr 1
    have := K_match (h1 := h1) (h2 := h2) (x1 := x1) (x2 := x2) (r1 := r'.1) (r2 := r'.2) e (lim1 - e) (lim2 - e) hr (fun j hj => out1 _ (.inr (by omega)) (by omega) (by omega)) (fun j hj => out2 _ (.inr (by omega)) (by omega) (by omega))
    rwa [show lim1 - e + e = lim1 by omega, show lim2 - e + e = lim2 by omega] at this

theorem recsCmp_eq {h1 h2 x1 x2 : List Nat} {env : Env} (hc : 0 < env.snakeCnt) (hs : h1.length + h2.length < 2 ^ 62) (hx1 : x1.length = h1.length) (hx2 : x2.length = h2.length) :
    ∀ (n off1 lim1 off2 lim2 : Nat) (needMin : Bool) (r : List Bool × List Bool), (lim1 - off1) + (lim2 - off2) < n → off1 ≤ lim1 → off2 ≤ lim2 → lim1 ≤ h1.length → lim2 ≤ h2.length →
      Index x1 r.1.length → Index x2 r.2.length → (∀ j, off1 ≤ j → j < lim1 → r.1.getD (x1.getD j 0) false = false) → (∀ j, off2 ≤ j → j < lim2 → r.2.getD (x2.getD j 0) false = false) →
      ∃ r', recsCmp h1 h2 x1 x2 env n off1 lim1 off2 lim2 needMin r = .ok r' ∧ Done h1 h2 x1 x2 off1 lim1 off2 lim2 r r' := by
  intro n
  induction n with
  | zero => intro off1 lim1 off2 lim2 _ r h; omega
  | succ n ih =>
    intro off1 lim1 off2 lim2 needMin r hn hl1 hl2 hm1 hm2 i1 i2 p1 p2
    rw [recsCmp, if_neg (by simp only [not_not]; exact ⟨hl1, hl2, hm1, hm2⟩)]
    dsimp only
    obtain ⟨a, ef, f1, f2, f3, f4⟩ := front_eq (h1 := h1) (h2 := h2) (lim1 := lim1) (lim2 := lim2) (lim1 - off1) off1 off2 (Nat.le_refl _) hl1 hl2
    rw [ef]
    dsimp only
    obtain ⟨e, ee, e1, e2, e3, e4, e5, e6⟩ := rear_eq (h1 := h1) (h2 := h2) (off1 := off1 + a) (off2 := off2 + a) (lim1 - (off1 + a)) lim1 lim2 (by omega) f1 f2
    rw [ee]
    dsimp only
    have widen := fun {r'} (d : Done h1 h2 x1 x2 (off1 + a) (lim1 - e) (off2 + a) (lim2 - e) r r') =>
      Done.widen i1 i2 hx1 hx2 hm1 hm2 p1 p2 e3 e4 e1 e2 f3 e5 d
    by_cases c1 : off1 + a = lim1 - e
    · rw [if_pos c1]
      refine ⟨_, rfl, widen ⟨rfl, foldl_set_length _ _, fun i _ => rfl, ?_, ?_⟩⟩
      · intro i hi
        dsimp only
        apply foldl_set_out
        rw [mem_seg (by omega)]
        rintro ⟨j, h1, h2, h3⟩
        exact hi j h1 h2 h3
      · rw [← c1, K_self, K_marked]
        intro j hj1 hj2
        exact foldl_set_in _ _ _ ((mem_seg (by omega)).mpr ⟨j, hj1, hj2, rfl⟩) (i2.lt j (by omega))
    · rw [if_neg c1]
      by_cases c2 : off2 + a = lim2 - e
      · rw [if_pos c2]
        refine ⟨_, rfl, widen ⟨foldl_set_length _ _, rfl, ?_, fun i _ => rfl, ?_⟩⟩
        · intro i hi
          dsimp only
          apply foldl_set_out
          rw [mem_seg (by omega)]
          rintro ⟨j, h1, h2, h3⟩
          exact hi j h1 h2 h3
        · rw [← c2, K_self, K_marked]
          intro j hj1 hj2
          exact foldl_set_in _ _ _ ((mem_seg (by omega)).mpr ⟨j, hj1, hj2, rfl⟩) (i1.lt j (by omega))
      · rw [if_neg c2]
        have w : InBox h1 h2 env ⟨((off1 + a : Nat) : Int), ((lim1 - e : Nat) : Int), ((off2 + a : Nat) : Int), ((lim2 - e : Nat) : Int)⟩ := by
          refine ⟨by simp only; omega, by simp only; omega, by simp only; omega, by simp only; omega, by simp only; omega, by simp only; omega, hs, ?_, ?_, hc⟩
          · simp only [same, Int.toNat_natCast, beq_eq_false_iff_ne]
            exact f4 (by omega) (by omega)
          · simp only [same, beq_eq_false_iff_ne]
            rw [show (((lim1 - e : Nat) : Int) - 1).toNat = lim1 - e - 1 by omega, show (((lim2 - e : Nat) : Int) - 1).toNat = lim2 - e - 1 by omega]
            exact e6 (by omega) (by omega)
        obtain ⟨s, es, s1, s2, s3, s4, s5, s6⟩ := split_eq w needMin
        dsimp only at s1 s2 s3 s4 s5 s6
        rw [es, Res.bind_ok, if_neg (by omega)]
        obtain ⟨u1, hu1⟩ : ∃ u : Nat, s.i1 = u := ⟨s.i1.toNat, by omega⟩
        obtain ⟨u2, hu2⟩ : ∃ u : Nat, s.i2 = u := ⟨s.i2.toNat, by omega⟩
        rw [hu1] at s1 s2 s5 s6
        rw [hu2] at s3 s4 s5 s6
        rw [hu1, hu2, Int.toNat_natCast, Int.toNat_natCast]
        have q1 : ∀ j, off1 + a ≤ j → j < lim1 - e → r.1.getD (x1.getD j 0) false = false := fun j h1 h2 => p1 j (by omega) (by omega)
        have q2 : ∀ j, off2 + a ≤ j → j < lim2 - e → r.2.getD (x2.getD j 0) false = false := fun j h1 h2 => p2 j (by omega) (by omega)
        obtain ⟨r', er, d⟩ := ih (off1 + a) u1 (off2 + a) u2 s.minLo r (by omega) (by omega) (by omega) (by omega) (by omega) i1 i2 (fun j h1 h2 => q1 j h1 (by omega)) (fun j h1 h2 => q2 j h1 (by omega))
        rw [er, Res.bind_ok]
        obtain ⟨r'', er', d'⟩ := ih u1 (lim1 - e) u2 (lim2 - e) s.minHi r' (by omega) (by omega) (by omega) (by omega) (by omega) (by rw [d.l1]; exact i1) (by rw [d.l2]; exact i2)
          (fun j h1 h2 => by
            rw [d.o1 _ (fun k hk1 hk2 hk3 => by have := i1.inj k j (by omega) (by omega) hk3; omega)]
            exact q1 j (by omega) h2)
          (fun j h1 h2 => by
            rw [d.o2 _ (fun k hk1 hk2 hk3 => by have := i2.inj k j (by omega) (by omega) hk3; omega)]
            exact q2 j (by omega) h2)
        refine ⟨r'', er', widen ⟨by rw [d'.l1, d.l1], by rw [d'.l2, d.l2], ?_, ?_, ?_⟩⟩
        · intro i hi
          rw [d'.o1 i (fun j h1 h2 => hi j (by omega) h2), d.o1 i (fun j h1 h2 => hi j h1 (by omega))]
        · intro i hi
          rw [d'.o2 i (fun j h1 h2 => hi j (by omega) h2), d.o2 i (fun j h1 h2 => hi j h1 (by omega))]
        · rw [K_split (m := u1) (by omega) (by omega), K_split (a := off2 + a) (m := u2) (by omega) (by omega), d'.k]
          congr 1
          rw [K_congr (r' := r'.1) (a := off1 + a), K_congr (r' := r'.2) (a := off2 + a), d.k]
          · intro j h1 h2
            rw [d'.o2 _ (fun k hk1 hk2 hk3 => by have := i2.inj k j (by omega) (by omega) hk3; omega)]
          · intro j h1 h2
            rw [d'.o1 _ (fun k hk1 hk2 hk3 => by have := i1.inj k j (by omega) (by omega) hk3; omega)]

end Verif.Xdiff
