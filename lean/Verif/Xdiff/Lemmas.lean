import Verif.Xdiff.Frontier2
/-! # `split` gives a point of the box that is not a corner -/
namespace Verif.Xdiff
open Par (next run reach Dom lo hi mid far dmin dmax Good Mirror Apart Near Inv Point)

theorem mem_diags {lo hi d : Int} : d ∈ diags lo hi ↔ lo ≤ d ∧ d ≤ hi ∧ (hi - d) % 2 = 0 := by
  unfold diags
  rw [List.mem_map]
  constructor
  · rintro ⟨i, hi, rfl⟩
    rw [List.mem_range] at hi
    omega
  · intro h
    refine ⟨((hi - d) / 2).toNat, ?_, ?_⟩
    · rw [List.mem_range]; omega
    · omega

theorem diags_ne {lo hi : Int} (h : lo ≤ hi) : hi ∈ diags lo hi := mem_diags.mpr (by omega)

theorem bsnake_eq (m : Int → Int → Bool) (off1 off2 : Int) : ∀ (n : Nat) (x y : Int),
    bsnake m off1 off2 n x y = -snake (fun x y => m (-x - 1) (-y - 1)) (-off1) (-off2) n (-x) (-y) := by
  intro n
  induction n with
  | zero => intro x y; simp [bsnake, snake]
  | succ n ih =>
    intro x y
    rw [bsnake, snake]
    have e1 : - -x - 1 = x - 1 := by omega
    have e2 : - -y - 1 = y - 1 := by omega
    rw [e1, e2]
    by_cases h : x > off1 ∧ y > off2 ∧ m (x - 1) (y - 1) = true
    · rw [if_pos h, if_pos ⟨by omega, by omega, h.2.2⟩, ih, show -(x - 1) = -x + 1 by omega, show -(y - 1) = -y + 1 by omega]
    · rw [if_neg h, if_neg (fun h' => h ⟨by omega, by omega, h'.2.2⟩), Int.neg_neg]

/-- what a loop of a round does: either the paths met, or all values are set -/
theorem forward_eq {h1 h2 : List Nat} {env : Env} {b : Box} {odd : Bool} {bmin bmax : Int} {kvdb : KV} {t : Int} {val vb : Int → Int} : ∀ (ds : List Int) (k : KV) (got : Bool),
    (∀ d ∈ ds, d % 2 = t) →
    (∀ d ∈ ds, ∃ a c, k (d - 1) = some a ∧ k (d + 1) = some c ∧ 0 ≤ next a c ∧ 0 ≤ next a c - d ∧ snake (same h1 h2) b.lim1 b.lim2 (b.lim1 - next a c).toNat (next a c) (next a c - d) = val d) →
    (odd = true → ∀ d ∈ ds, bmin ≤ d → d ≤ bmax → kvdb d = some (vb d)) →
    (∃ d ∈ ds, odd = true ∧ bmin ≤ d ∧ d ≤ bmax ∧ vb d ≤ val d ∧ forward h1 h2 env b odd bmin bmax kvdb ds k got = .ok (.at (val d) (val d - d))) ∨
    (∃ k' got', forward h1 h2 env b odd bmin bmax kvdb ds k got = .ok (.no k' got') ∧ (∀ d ∈ ds, k' d = some (val d)) ∧ (∀ e, e ∉ ds → k' e = k e) ∧
      (odd = true → ∀ d ∈ ds, bmin ≤ d → d ≤ bmax → val d < vb d)) := by
  intro ds
  induction ds with
  | nil => intro k got _ _ _; exact .inr ⟨k, got, rfl, by simp, by simp, by simp⟩
  | cons d ds ih =>
    intro k got hpar hread hv
    obtain ⟨a, c, ha, hc, hn1, hn2, hsn⟩ := hread d (by simp)
    have hnext : (if a ≥ c then a + 1 else c) = next a c := rfl
    rw [forward, ha, hc]
    dsimp only
    rw [hnext, if_neg (by omega), hsn]
    have hd := hpar d (by simp)
    have hpar' : ∀ e ∈ ds, e % 2 = t := fun e he => hpar e (List.mem_cons_of_mem _ he)
    have ih' := ih (k.set d (val d)) (got || decide (val d - next a c > env.snakeCnt)) hpar' (by
      intro e he
      obtain ⟨a', c', g1, g2, g3⟩ := hread e (List.mem_cons_of_mem _ he)
      have := hpar' e he
      refine ⟨a', c', ?_, ?_, g3⟩
      · rw [KV.set, if_neg (by omega)]; exact g1
      · rw [KV.set, if_neg (by omega)]; exact g2) (fun ho e he => hv ho e (List.mem_cons_of_mem _ he))
    have fin : (odd = true → bmin ≤ d → d ≤ bmax → val d < vb d) →
        (∃ e ∈ d :: ds, odd = true ∧ bmin ≤ e ∧ e ≤ bmax ∧ vb e ≤ val e ∧
          forward h1 h2 env b odd bmin bmax kvdb ds (k.set d (val d)) (got || decide (val d - next a c > env.snakeCnt)) = .ok (.at (val e) (val e - e))) ∨
        (∃ k' got', forward h1 h2 env b odd bmin bmax kvdb ds (k.set d (val d)) (got || decide (val d - next a c > env.snakeCnt)) = .ok (.no k' got') ∧
          (∀ e ∈ d :: ds, k' e = some (val e)) ∧ (∀ e, e ∉ d :: ds → k' e = k e) ∧ (odd = true → ∀ e ∈ d :: ds, bmin ≤ e → e ≤ bmax → val e < vb e)) := by
      intro hlt
      rcases ih' with ⟨e, he, h⟩ | ⟨k', got', e1, e2, e3, e4⟩
      · exact .inl ⟨e, List.mem_cons_of_mem _ he, h⟩
      · refine .inr ⟨k', got', e1, ?_, ?_, ?_⟩
        · intro e he
          by_cases hm : e ∈ ds
          · exact e2 e hm
          · have : e = d := by simpa [hm] using he
            subst this
            rw [e3 e hm, KV.set, if_pos rfl]
        · intro e he
          rw [List.mem_cons, not_or] at he
          rw [e3 e he.2, KV.set, if_neg he.1]
        · intro ho e he h1 h2
          rcases List.mem_cons.mp he with rfl | he
          · exact hlt ho h1 h2
          · exact e4 ho e he h1 h2
    by_cases ht : odd = true ∧ bmin ≤ d ∧ d ≤ bmax
    · rw [if_pos ht, hv ht.1 d (by simp) ht.2.1 ht.2.2]
      dsimp only
      by_cases hle : vb d ≤ val d
      · rw [if_pos hle]
        exact .inl ⟨d, by simp, ht.1, ht.2.1, ht.2.2, hle, rfl⟩
      · rw [if_neg hle]
        exact fin (fun _ _ _ => by omega)
    · rw [if_neg ht]
      exact fin (fun h1 h2 h3 => absurd ⟨h1, h2, h3⟩ ht)

/-- the same backward; the values are seen from the other corner -/
theorem backward_eq {h1 h2 : List Nat} {env : Env} {b : Box} {odd : Bool} {fmin fmax : Int} {kvdf : KV} {t : Int} {val vf : Int → Int} : ∀ (ds : List Int) (k : KV) (got : Bool),
    (∀ d ∈ ds, d % 2 = t) →
    (∀ d ∈ ds, ∃ a c, k (d - 1) = some (-c) ∧ k (d + 1) = some (-a) ∧ -(h1.length : Int) ≤ next a c ∧ -(h2.length : Int) ≤ next a c + d ∧
      snake (fun x y => same h1 h2 (-x - 1) (-y - 1)) (-b.off1) (-b.off2) (-b.off1 - next a c).toNat (next a c) (next a c + d) = -val d) →
    (odd = false → ∀ d ∈ ds, fmin ≤ d → d ≤ fmax → kvdf d = some (vf d)) →
    (∃ d ∈ ds, odd = false ∧ fmin ≤ d ∧ d ≤ fmax ∧ val d ≤ vf d ∧ backward h1 h2 env b odd fmin fmax kvdf ds k got = .ok (.at (val d) (val d - d))) ∨
    (∃ k' got', backward h1 h2 env b odd fmin fmax kvdf ds k got = .ok (.no k' got') ∧ (∀ d ∈ ds, k' d = some (val d)) ∧ (∀ e, e ∉ ds → k' e = k e) ∧
      (odd = false → ∀ d ∈ ds, fmin ≤ d → d ≤ fmax → vf d < val d)) := by
  intro ds
  induction ds with
  | nil => intro k got _ _ _; exact .inr ⟨k, got, rfl, by simp, by simp, by simp⟩
  | cons d ds ih =>
    intro k got hpar hread hv
    obtain ⟨a, c, ha, hc, hn1, hn2, hsn⟩ := hread d (by simp)
    have hnext : (if -c < -a then -c else -a - 1) = -next a c := by
      unfold next
      by_cases h : a ≥ c
      · rw [if_pos h, if_neg (by omega)]; omega
      · rw [if_neg h, if_pos (by omega)]
    have hsn' : bsnake (same h1 h2) b.off1 b.off2 (-next a c - b.off1).toNat (-next a c) (-next a c - d) = val d := by
      rw [bsnake_eq, Int.neg_neg, show -(-next a c - d) = next a c + d by omega, show -next a c - b.off1 = -b.off1 - next a c by omega, hsn, Int.neg_neg]
    rw [backward, ha, hc]
    dsimp only
    rw [hnext, if_neg (by omega), hsn']
    have hd := hpar d (by simp)
    have hpar' : ∀ e ∈ ds, e % 2 = t := fun e he => hpar e (List.mem_cons_of_mem _ he)
    have ih' := ih (k.set d (val d)) (got || decide (-next a c - val d > env.snakeCnt)) hpar' (by
      intro e he
      obtain ⟨a', c', g1, g2, g3⟩ := hread e (List.mem_cons_of_mem _ he)
      have := hpar' e he
      refine ⟨a', c', ?_, ?_, g3⟩
      · rw [KV.set, if_neg (by omega)]; exact g1
      · rw [KV.set, if_neg (by omega)]; exact g2) (fun ho e he => hv ho e (List.mem_cons_of_mem _ he))
    have fin : (odd = false → fmin ≤ d → d ≤ fmax → vf d < val d) →
        (∃ e ∈ d :: ds, odd = false ∧ fmin ≤ e ∧ e ≤ fmax ∧ val e ≤ vf e ∧
          backward h1 h2 env b odd fmin fmax kvdf ds (k.set d (val d)) (got || decide (-next a c - val d > env.snakeCnt)) = .ok (.at (val e) (val e - e))) ∨
        (∃ k' got', backward h1 h2 env b odd fmin fmax kvdf ds (k.set d (val d)) (got || decide (-next a c - val d > env.snakeCnt)) = .ok (.no k' got') ∧
          (∀ e ∈ d :: ds, k' e = some (val e)) ∧ (∀ e, e ∉ d :: ds → k' e = k e) ∧ (odd = false → ∀ e ∈ d :: ds, fmin ≤ e → e ≤ fmax → vf e < val e)) := by
      intro hlt
      rcases ih' with ⟨e, he, h⟩ | ⟨k', got', e1, e2, e3, e4⟩
      · exact .inl ⟨e, List.mem_cons_of_mem _ he, h⟩
      · refine .inr ⟨k', got', e1, ?_, ?_, ?_⟩
        · intro e he
          by_cases hm : e ∈ ds
          · exact e2 e hm
          · have : e = d := by simpa [hm] using he
            subst this
            rw [e3 e hm, KV.set, if_pos rfl]
        · intro e he
          rw [List.mem_cons, not_or] at he
          rw [e3 e he.2, KV.set, if_neg he.1]
        · intro ho e he h1 h2
          rcases List.mem_cons.mp he with rfl | he
          · exact hlt ho h1 h2
          · exact e4 ho e he h1 h2
    by_cases ht : odd = false ∧ fmin ≤ d ∧ d ≤ fmax
    · rw [if_pos ht, hv ht.1 d (by simp) ht.2.1 ht.2.2]
      dsimp only
      by_cases hle : val d ≤ vf d
      · rw [if_pos hle]
        exact .inl ⟨d, by simp, ht.1, ht.2.1, ht.2.2, hle, rfl⟩
      · rw [if_neg hle]
        exact fin (fun _ _ _ => by omega)
    · rw [if_neg ht]
      exact fin (fun h1 h2 h3 => absurd ⟨h1, h2, h3⟩ ht)

theorem grow_key (dmin dmax s lo hi : Int) (k : KV) (e : Int) : (grow dmin dmax s lo hi k).2.2 e =
    if hi < dmax ∧ e = hi + 2 then some s else if lo > dmin ∧ e = lo - 2 then some s else k e := by
  unfold grow
  dsimp only
  by_cases ha : hi < dmax
  · by_cases hb : lo > dmin
    · simp only [KV.set, ha, hb, true_and, if_true]
      rw [show hi + 1 + 1 = hi + 2 by omega, show lo - 1 - 1 = lo - 2 by omega]
    · simp only [KV.set, ha, hb, true_and, false_and, if_false, if_true]
      rw [show hi + 1 + 1 = hi + 2 by omega]
  · by_cases hb : lo > dmin
    · simp only [KV.set, ha, hb, true_and, false_and, if_false, if_true]
      rw [show lo - 1 - 1 = lo - 2 by omega]
    · simp only [ha, hb, false_and, if_false]

/-- a larger domain: what is read in a round is there -/
theorem grow_read {p : Par} (g : p.Good) {r : Nat} {k : KV} (hk : ∀ d, p.Dom r d → k d = some (p.reach r d)) {d : Int} (hd : p.Dom (r + 1) d) :
    (grow p.dmin p.dmax p.s (p.lo r) (p.hi r) k).2.2 (d - 1) = some (if d - 1 < p.lo r then p.s else p.reach r (d - 1)) ∧
    (grow p.dmin p.dmax p.s (p.lo r) (p.hi r) k).2.2 (d + 1) = some (if p.hi r < d + 1 then p.s else p.reach r (d + 1)) := by
  have l1 := Par.lo_facts g r; have l2 := Par.lo_step p r
  have l3 := Par.hi_facts g r; have l4 := Par.hi_step p r
  obtain ⟨d1, d2, d3⟩ := hd
  push_cast at d3
  constructor
  · rw [grow_key]
    by_cases h : d - 1 < p.lo r
    · rw [if_neg (by omega), if_pos (by omega), if_pos h]
    · rw [if_neg (by omega), if_neg (by omega), if_neg h]
      exact hk _ ⟨by omega, by omega, by omega⟩
  · rw [grow_key]
    by_cases h : p.hi r < d + 1
    · rw [if_pos (by omega), if_pos h]
    · rw [if_neg (by omega), if_neg (by omega), if_neg h]
      exact hk _ ⟨by omega, by omega, by omega⟩

/-- the same from the other corner -/
theorem grow_read_back {p : Par} (g : p.Good) {r : Nat} {k : KV} (hk : ∀ d, p.Dom r (-d) → k d = some (-p.reach r (-d))) {d : Int} (hd : p.Dom (r + 1) (-d)) :
    (grow (-p.dmax) (-p.dmin) (-p.s) (-p.hi r) (-p.lo r) k).2.2 (d - 1) = some (-(if p.hi r < -d + 1 then p.s else p.reach r (-d + 1))) ∧
    (grow (-p.dmax) (-p.dmin) (-p.s) (-p.hi r) (-p.lo r) k).2.2 (d + 1) = some (-(if -d - 1 < p.lo r then p.s else p.reach r (-d - 1))) := by
  have l1 := Par.lo_facts g r; have l2 := Par.lo_step p r
  have l3 := Par.hi_facts g r; have l4 := Par.hi_step p r
  obtain ⟨d1, d2, d3⟩ := hd
  push_cast at d3
  have e1 : -(d - 1) = -d + 1 := by omega
  have e2 : -(d + 1) = -d - 1 := by omega
  constructor
  · rw [grow_key]
    by_cases h : p.hi r < -d + 1
    · rw [if_neg (by omega), if_pos (by omega), if_pos h]
    · rw [if_neg (by omega), if_neg (by omega), if_neg h, hk (d - 1) (by rw [e1]; exact ⟨by omega, by omega, by omega⟩), e1]
  · rw [grow_key]
    by_cases h : -d - 1 < p.lo r
    · rw [if_pos (by omega), if_pos h]
    · rw [if_neg (by omega), if_neg (by omega), if_neg h, hk (d + 1) (by rw [e2]; exact ⟨by omega, by omega, by omega⟩), e2]

theorem grow_lo (p : Par) (r : Nat) (s : Int) (k : KV) : (grow p.dmin p.dmax s (p.lo r) (p.hi r) k).1 = p.lo (r + 1) ∧ (grow p.dmin p.dmax s (p.lo r) (p.hi r) k).2.1 = p.hi (r + 1) := ⟨rfl, rfl⟩

theorem grow_lo_back (p : Par) (r : Nat) (s : Int) (k : KV) :
    (grow (-p.dmax) (-p.dmin) s (-p.hi r) (-p.lo r) k).1 = -p.hi (r + 1) ∧ (grow (-p.dmax) (-p.dmin) s (-p.hi r) (-p.lo r) k).2.1 = -p.lo (r + 1) := by
  unfold grow
  dsimp only
  rw [Par.lo, Par.hi]
  constructor
  · by_cases h : p.hi r < p.dmax
    · rw [if_pos h, if_pos (by omega)]; omega
    · rw [if_neg h, if_neg (by omega)]; omega
  · by_cases h : p.lo r > p.dmin
    · rw [if_pos h, if_pos (by omega)]; omega
    · rw [if_neg h, if_neg (by omega)]; omega

theorem dom_iff {p : Par} (g : p.Good) {r : Nat} {d : Int} : p.Dom r d ↔ d ∈ diags (p.lo r) (p.hi r) := by
  rw [mem_diags]
  have := (Par.hi_facts g r).2.2.1
  constructor
  · rintro ⟨d1, d2, d3⟩; omega
  · rintro ⟨d1, d2, d3⟩; exact ⟨d1, d2, by omega⟩

end Verif.Xdiff
