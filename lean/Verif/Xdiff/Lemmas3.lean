import Verif.Xdiff.Lemmas2
/-! # `split` gives a point -/
namespace Verif.Xdiff
open Par (next run reach Dom lo hi mid far dmin dmax Good Mirror Apart Near Inv Point)

variable {h1 h2 : List Nat} {env : Env} {b : Box}

/-- the paths have not met in `r` rounds -/
structure Hist (h1 h2 : List Nat) (b : Box) (odd : Bool) (r : Nat) : Prop where
  nf : ∀ k, k ≤ r → (fp h1 h2 b).Near k
  nb : ∀ k, k < r → (bp h1 h2 b).Near k
  nb' : odd = false → (bp h1 h2 b).Near r
  ao : odd = true → ∀ l, r = l + 1 → Apart (fp h1 h2 b) (bp h1 h2 b) r l
  ae : odd = false → Apart (fp h1 h2 b) (bp h1 h2 b) r r

/-- whether the corners are on diagonals of different parity -/
def oddOf (b : Box) : Bool := decide (((b.off1 - b.off2) - (b.lim1 - b.lim2)) % 2 ≠ 0)

theorem odd_iff : (oddOf b = true ↔ (b.off1 - b.off2 - (b.lim1 - b.lim2)) % 2 = 1) ∧ (oddOf b = false ↔ (b.off1 - b.off2 - (b.lim1 - b.lim2)) % 2 = 0) := by
  unfold oddOf
  rw [decide_eq_true_eq, decide_eq_false_iff_not]
  omega

theorem hist_zero (w : InBox h1 h2 env b) : Hist h1 h2 b (oddOf b) 0 := by
  have a2 := w.a2; have b2 := w.b2
  refine ⟨?_, ?_, ?_, ?_, ?_⟩
  · intro k hk
    rw [Nat.le_zero.mp hk]
    exact Par.near_zero (fp_good w)
  · intro k hk; omega
  · intro _; exact Par.near_zero (bp_good w)
  · intro _ l hl; omega
  · intro _ d h1 h2
    simp only [reach]
    show b.off1 + -b.lim1 < 0
    omega

/-- the round of the paths forward -/
theorem forward_round (w : InBox h1 h2 env b) {r : Nat} {st : St} (a : After h1 h2 b r st) (hh : Hist h1 h2 b (oddOf b) r) :
    (∃ i1 i2, forward h1 h2 env b (oddOf b) st.bmin st.bmax st.kvdb (diags ((fp h1 h2 b).lo (r + 1)) ((fp h1 h2 b).hi (r + 1)))
        (grow (fp h1 h2 b).dmin (fp h1 h2 b).dmax (-1) st.fmin st.fmax st.kvdf).2.2 false = .ok (.at i1 i2) ∧ (fp h1 h2 b).Point i1 i2) ∨
    (∃ k got, forward h1 h2 env b (oddOf b) st.bmin st.bmax st.kvdb (diags ((fp h1 h2 b).lo (r + 1)) ((fp h1 h2 b).hi (r + 1)))
        (grow (fp h1 h2 b).dmin (fp h1 h2 b).dmax (-1) st.fmin st.fmax st.kvdf).2.2 false = .ok (.no k got) ∧
      (∀ d, (fp h1 h2 b).Dom (r + 1) d → k d = some ((fp h1 h2 b).reach (r + 1) d)) ∧ (oddOf b = true → Apart (fp h1 h2 b) (bp h1 h2 b) (r + 1) r)) := by
  have gf := fp_good w
  have gb := bp_good w
  have a1 := w.a1; have b1 := w.b1
  have hI : ∀ k, k ≤ r + 1 → (fp h1 h2 b).Inv k := fun k hk => Par.inv_all gf k (fun l hl => hh.nf l (by omega))
  have hpar : ∀ d ∈ diags ((fp h1 h2 b).lo (r + 1)) ((fp h1 h2 b).hi (r + 1)), d % 2 = ((fp h1 h2 b).mid + ((r + 1 : Nat) : Int)) % 2 := by
    intro d hd
    have := ((dom_iff gf).mpr hd).2.2
    omega
  have := forward_eq (h1 := h1) (h2 := h2) (env := env) (b := b) (odd := oddOf b) (bmin := st.bmin) (bmax := st.bmax) (kvdb := st.kvdb) (val := fun d => (fp h1 h2 b).reach (r + 1) d)
    (vb := fun d => -(bp h1 h2 b).reach r (-d)) (diags ((fp h1 h2 b).lo (r + 1)) ((fp h1 h2 b).hi (r + 1)))
    (grow (fp h1 h2 b).dmin (fp h1 h2 b).dmax (-1) st.fmin st.fmax st.kvdf).2.2 false hpar (by
      intro d hd
      have hd := (dom_iff gf).mpr hd
      obtain ⟨q1, q2⟩ := grow_read gf a.kf hd
      have hge := Par.reach_ge gf (r + 1) d hd
      rw [a.f1, a.f2]
      obtain ⟨x, ex, hx⟩ := Par.reach_succ' gf hd
      refine ⟨_, _, q1, q2, ?_, ?_, rfl⟩ <;>
      · have e : (fp h1 h2 b).s = -1 := rfl
        have o1 : (fp h1 h2 b).off1 = b.off1 := rfl
        have o2 : (fp h1 h2 b).off2 = b.off2 := rfl
        rw [e]
        have ra : ∀ e, (fp h1 h2 b).Dom r e → _ := fun e he => Par.reach_ge gf r e he
        have l1 := Par.lo_facts gf r; have l2 := Par.lo_step (fp h1 h2 b) r
        have l3 := Par.hi_facts gf r; have l4 := Par.hi_step (fp h1 h2 b) r
        obtain ⟨d1, d2, d3⟩ := hd
        push_cast at d3
        unfold next
        by_cases hl : d - 1 < (fp h1 h2 b).lo r
        · have r1 := ra (d + 1) ⟨by omega, by omega, by omega⟩
          rw [if_pos hl]
          rw [if_neg (show ¬ (fp h1 h2 b).hi r < d + 1 by omega)]
          rw [if_neg (by omega)]; omega
        · have r1 := ra (d - 1) ⟨by omega, by omega, by omega⟩
          rw [if_neg hl]
          by_cases hu : (fp h1 h2 b).hi r < d + 1
          · rw [if_pos hu, if_pos (by omega)]; omega
          · have r2 := ra (d + 1) ⟨by omega, by omega, by omega⟩
            rw [if_neg hu]
            split <;> omega) (by
      intro ho d hd hl hu
      have hdd := (dom_iff gf).mpr hd
      apply a.kb
      rw [dom_back w, mem_diags, ← a.g1, ← a.g2]
      refine ⟨hl, hu, ?_⟩
      rw [a.g2]
      have h1 := (Par.lo_facts gb r).2.2.1
      have h2 := hdd.2.2
      have h3 := odd_iff.1.mp ho
      simp only [fp, bp, mid] at h1 h2 ⊢
      push_cast at h2
      omega)
  rcases this with ⟨d, hd, ho, hl, hu, _, he⟩ | ⟨k, got, e1, e2, e3, e4⟩
  · left
    refine ⟨_, _, he, ?_⟩
    have hdd := (dom_iff gf).mpr hd
    have hdb : (bp h1 h2 b).Dom r (-d) := by
      rw [dom_back w, mem_diags, ← a.g1, ← a.g2]
      refine ⟨hl, hu, ?_⟩
      rw [a.g2]
      have h1 := (Par.lo_facts gb r).2.2.1
      have h2 := hdd.2.2
      have h3 := odd_iff.1.mp ho
      simp only [fp, bp, mid] at h1 h2 ⊢
      push_cast at h2
      omega
    refine Par.met gf gb fb_mirror (hI r (by omega)) (hI (r + 1) (by omega)) ?_ (fun l hl => hh.ao ho l hl) hdd hdb
    have h3 := odd_iff.1.mp ho
    simp only [fp, far, mid]
    omega
  · right
    refine ⟨k, got, e1, fun d hd => e2 d ((dom_iff gf).mp hd), ?_⟩
    intro ho d hd hdb
    have hb := (dom_back w).mp hdb
    rw [mem_diags, ← a.g1, ← a.g2] at hb
    have := e4 ho d ((dom_iff gf).mp hd) hb.1 hb.2.1
    omega

/-- the round of the paths backward -/
theorem backward_round (w : InBox h1 h2 env b) {r : Nat} {st : St} (a : After h1 h2 b r st) (hh : Hist h1 h2 b (oddOf b) r) {kvdf : KV} {got : Bool}
    (hkf : ∀ d, (fp h1 h2 b).Dom (r + 1) d → kvdf d = some ((fp h1 h2 b).reach (r + 1) d)) :
    (∃ i1 i2, backward h1 h2 env b (oddOf b) ((fp h1 h2 b).lo (r + 1)) ((fp h1 h2 b).hi (r + 1)) kvdf (diags (-(bp h1 h2 b).hi (r + 1)) (-(bp h1 h2 b).lo (r + 1)))
        (grow (fp h1 h2 b).dmin (fp h1 h2 b).dmax LINE_MAX st.bmin st.bmax st.kvdb).2.2 got = .ok (.at i1 i2) ∧ (fp h1 h2 b).Point i1 i2) ∨
    (∃ k got', backward h1 h2 env b (oddOf b) ((fp h1 h2 b).lo (r + 1)) ((fp h1 h2 b).hi (r + 1)) kvdf (diags (-(bp h1 h2 b).hi (r + 1)) (-(bp h1 h2 b).lo (r + 1)))
        (grow (fp h1 h2 b).dmin (fp h1 h2 b).dmax LINE_MAX st.bmin st.bmax st.kvdb).2.2 got = .ok (.no k got') ∧
      (∀ d, (bp h1 h2 b).Dom (r + 1) (-d) → k d = some (-(bp h1 h2 b).reach (r + 1) (-d))) ∧ (oddOf b = false → Apart (fp h1 h2 b) (bp h1 h2 b) (r + 1) (r + 1))) := by
  have gf := fp_good w
  have gb := bp_good w
  have a3 := w.a3; have b3 := w.b3
  have em : (fp h1 h2 b).dmin = -(bp h1 h2 b).dmax := by simp only [dmin, dmax, fp, bp]; omega
  have eM : (fp h1 h2 b).dmax = -(bp h1 h2 b).dmin := by simp only [dmin, dmax, fp, bp]; omega
  have es : LINE_MAX = -(bp h1 h2 b).s := by simp only [bp]; omega
  have hpar : ∀ d ∈ diags (-(bp h1 h2 b).hi (r + 1)) (-(bp h1 h2 b).lo (r + 1)), d % 2 = ((bp h1 h2 b).mid + ((r + 1 : Nat) : Int)) % 2 := by
    intro d hd
    have := ((dom_back w).mpr hd).2.2
    omega
  have hdf : oddOf b = false → ∀ d, (bp h1 h2 b).Dom (r + 1) (-d) → (fp h1 h2 b).lo (r + 1) ≤ d → d ≤ (fp h1 h2 b).hi (r + 1) → (fp h1 h2 b).Dom (r + 1) d := by
    intro ho d hd hl hu
    refine ⟨hl, hu, ?_⟩
    have h2 := hd.2.2
    have h3 := odd_iff.2.mp ho
    simp only [fp, bp, mid] at h2 ⊢
    omega
  have := backward_eq (h1 := h1) (h2 := h2) (env := env) (b := b) (odd := oddOf b) (fmin := (fp h1 h2 b).lo (r + 1)) (fmax := (fp h1 h2 b).hi (r + 1)) (kvdf := kvdf)
    (val := fun d => -(bp h1 h2 b).reach (r + 1) (-d)) (vf := fun d => (fp h1 h2 b).reach (r + 1) d) (diags (-(bp h1 h2 b).hi (r + 1)) (-(bp h1 h2 b).lo (r + 1)))
    (grow (fp h1 h2 b).dmin (fp h1 h2 b).dmax LINE_MAX st.bmin st.bmax st.kvdb).2.2 got hpar (by
      intro d hd
      have hd := (dom_back w).mpr hd
      obtain ⟨q1, q2⟩ := grow_read_back gb a.kb hd
      rw [a.g1, a.g2, em, eM, es]
      refine ⟨_, _, q1, q2, ?_, ?_, ?_⟩
      rotate_right
      · rw [Int.neg_neg]
        show _ = (bp h1 h2 b).run (-d) _
        unfold run
        rw [show ∀ x : Int, x - -d = x + d by intro x; omega]
        rfl
      all_goals
      · have e : (bp h1 h2 b).s = -LINE_MAX := rfl
        have hsm := gb.hs
        have o1 : (bp h1 h2 b).off1 = -b.lim1 := rfl
        have o2 : (bp h1 h2 b).off2 = -b.lim2 := rfl
        have ra : ∀ e, (bp h1 h2 b).Dom r e → _ := fun e he => Par.reach_ge gb r e he
        have l1 := Par.lo_facts gb r; have l2 := Par.lo_step (bp h1 h2 b) r
        have l3 := Par.hi_facts gb r; have l4 := Par.hi_step (bp h1 h2 b) r
        obtain ⟨d1, d2, d3⟩ := hd
        push_cast at d3
        unfold next
        by_cases hl : -d - 1 < (bp h1 h2 b).lo r
        · have r1 := ra (-d + 1) ⟨by omega, by omega, by omega⟩
          rw [if_pos hl]
          rw [if_neg (show ¬ (bp h1 h2 b).hi r < -d + 1 by omega)]
          rw [if_neg (by omega)]; omega
        · have r1 := ra (-d - 1) ⟨by omega, by omega, by omega⟩
          rw [if_neg hl]
          by_cases hu : (bp h1 h2 b).hi r < -d + 1
          · rw [if_pos hu, if_pos (by omega)]; omega
          · have r2 := ra (-d + 1) ⟨by omega, by omega, by omega⟩
            rw [if_neg hu]
            split <;> omega) (by
      intro ho d hd hl hu
      exact hkf d (hdf ho d ((dom_back w).mpr hd) hl hu))
  rcases this with ⟨d, hd, ho, hl, hu, _, he⟩ | ⟨k, got, e1, e2, e3, e4⟩
  · left
    refine ⟨_, _, he, ?_⟩
    have hdd := (dom_back w).mpr hd
    have hd' := hdf ho d hdd hl hu
    have hI : ∀ k, k ≤ r + 1 → (bp h1 h2 b).Inv k := fun k hk => Par.inv_all gb k (fun l hl => by
      by_cases e : l = r
      · subst e; exact hh.nb' ho
      · exact hh.nb l (by omega))
    have hpt := Par.met gb gf fb_mirror.symm (l := r + 1) (hI r (by omega)) (hI (r + 1) (by omega)) (by
      have h3 := odd_iff.2.mp ho
      simp only [bp, far, mid]
      push_cast
      omega) (fun l hl => by
        have : l = r := by omega
        subst this
        exact (hh.ae ho).symm) hdd (by rw [Int.neg_neg]; exact hd')
    have := point_back hpt
    rwa [show -((bp h1 h2 b).reach (r + 1) (-d) - -d) = -(bp h1 h2 b).reach (r + 1) (-d) - d by omega] at this
  · right
    refine ⟨k, got, e1, fun d hd => e2 d ((dom_back w).mp hd), ?_⟩
    intro ho d hd hdb
    have := e4 ho d ((dom_back w).mp hdb) hd.1 hd.2.1
    omega

theorem splitLoop_eq (w : InBox h1 h2 env b) (needMin : Bool) : ∀ (n r : Nat) (ec : Int) (st : St), After h1 h2 b r st → Hist h1 h2 b (oddOf b) r →
    (b.lim1 - b.off1) + (b.lim2 - b.off2) + 2 ≤ (n : Int) + r → ∃ s, splitLoop h1 h2 env b needMin n ec st = .ok s ∧ (fp h1 h2 b).Point s.i1 s.i2 := by
  intro n
  have gf := fp_good w
  have gb := bp_good w
  induction n with
  | zero =>
    intro r ec st a hh hn
    have := Par.bounded gf r (Par.inv_all gf r fun k hk => hh.nf k (by omega))
    simp only [fp] at this
    omega
  | succ n ih =>
    intro r ec st a hh hn
    rw [splitLoop]
    dsimp only
    have e1 : decide ((b.off1 - b.off2 - (b.lim1 - b.lim2)) % 2 ≠ 0) = oddOf b := rfl
    have e2 : b.off1 - b.lim2 = (fp h1 h2 b).dmin := rfl
    have e3 : b.lim1 - b.off2 = (fp h1 h2 b).dmax := rfl
    have em : (fp h1 h2 b).dmin = -(bp h1 h2 b).dmax := by simp only [dmin, dmax, fp, bp]; omega
    have eM : (fp h1 h2 b).dmax = -(bp h1 h2 b).dmin := by simp only [dmin, dmax, fp, bp]; omega
    rw [e1, e2, e3]
    have gl : (grow (fp h1 h2 b).dmin (fp h1 h2 b).dmax (-1) st.fmin st.fmax st.kvdf).1 = (fp h1 h2 b).lo (r + 1) := by
      rw [a.f1, a.f2]; exact (grow_lo _ _ _ _).1
    have gh : (grow (fp h1 h2 b).dmin (fp h1 h2 b).dmax (-1) st.fmin st.fmax st.kvdf).2.1 = (fp h1 h2 b).hi (r + 1) := by
      rw [a.f1, a.f2]; exact (grow_lo _ _ _ _).2
    have gl' : (grow (fp h1 h2 b).dmin (fp h1 h2 b).dmax LINE_MAX st.bmin st.bmax st.kvdb).1 = -(bp h1 h2 b).hi (r + 1) := by
      rw [a.g1, a.g2, em, eM]; exact (grow_lo_back _ _ _ _).1
    have gh' : (grow (fp h1 h2 b).dmin (fp h1 h2 b).dmax LINE_MAX st.bmin st.bmax st.kvdb).2.1 = -(bp h1 h2 b).lo (r + 1) := by
      rw [a.g1, a.g2, em, eM]; exact (grow_lo_back _ _ _ _).2
    rw [gl, gh, gl', gh']
    have f1 := Par.lo_facts gf (r + 1); have f2 := Par.hi_facts gf (r + 1)
    have f3 := Par.lo_facts gb (r + 1); have f4 := Par.hi_facts gb (r + 1)
    have w1 := w.a1; have w2 := w.a2; have w3 := w.a3; have w4 := w.b1; have w5 := w.b2; have w6 := w.b3
    have dd1 : (fp h1 h2 b).dmin = b.off1 - b.lim2 := rfl
    have dd2 : (fp h1 h2 b).dmax = b.lim1 - b.off2 := rfl
    rw [if_neg (by omega)]
    rcases forward_round w a hh with ⟨i1, i2, hf, hp⟩ | ⟨k, got, hf, hk, hap⟩
    · rw [hf, Res.bind_ok]
      exact ⟨_, rfl, hp⟩
    · rw [hf, Res.bind_ok]
      dsimp only
      rw [if_neg (by omega)]
      rcases backward_round w a hh (got := got) hk with ⟨i1, i2, hb, hp⟩ | ⟨k', got', hb, hk', hap'⟩
      · rw [hb, Res.bind_ok]
        exact ⟨_, rfl, hp⟩
      · rw [hb, Res.bind_ok]
        dsimp only
        have a' : After h1 h2 b (r + 1) ⟨(fp h1 h2 b).lo (r + 1), (fp h1 h2 b).hi (r + 1), -(bp h1 h2 b).hi (r + 1), -(bp h1 h2 b).lo (r + 1), k, k'⟩ := ⟨rfl, rfl, rfl, rfl, hk, hk'⟩
        have hnf : (fp h1 h2 b).Near (r + 1) := by
          cases ho : oddOf b with
          | true =>
            refine Par.near_of gf gb fb_mirror (l := r) ?_ (hap ho)
            have := odd_iff.1.mp ho
            simp only [fp, far, mid]; push_cast; omega
          | false =>
            refine Par.near_of gf gb fb_mirror (l := r + 1) ?_ (hap' ho)
            have := odd_iff.2.mp ho
            simp only [fp, far, mid]; push_cast; omega
        have hnb : (bp h1 h2 b).Near r := by
          cases ho : oddOf b with
          | true =>
            refine Par.near_of gb gf fb_mirror.symm (l := r + 1) ?_ (hap ho).symm
            have := odd_iff.1.mp ho
            simp only [bp, far, mid]; push_cast; omega
          | false => exact hh.nb' ho
        have hh' : Hist h1 h2 b (oddOf b) (r + 1) := by
          refine ⟨?_, ?_, ?_, ?_, hap'⟩
          · intro j hj
            by_cases e : j = r + 1
            · subst e; exact hnf
            · exact hh.nf j (by omega)
          · intro j hj
            by_cases e : j = r
            · subst e; exact hnb
            · exact hh.nb j (by omega)
          · intro ho
            refine Par.near_of gb gf fb_mirror.symm (l := r + 1) ?_ (hap' ho).symm
            have := odd_iff.2.mp ho
            simp only [bp, far, mid]; push_cast; omega
          · intro ho l hl
            have : l = r := by omega
            subst this
            exact hap ho
        have hi1 := Par.inv_all gf (r + 1) fun j hj => hh'.nf j (by omega)
        have hi2 := Par.inv_all gb (r + 1) fun j hj => hh'.nb j (by omega)
        rcases giveUp_eq w (needMin := needMin) (got := got') (ec := ec) a' (by omega) hi1 hi2 with hg | ⟨s, hg, hp⟩
        · rw [hg, Res.bind_ok]
          exact ih (r + 1) (ec + 1) _ a' hh' (by push_cast at hn ⊢; omega)
        · rw [hg, Res.bind_ok]
          exact ⟨s, rfl, hp⟩

theorem split_eq (w : InBox h1 h2 env b) (needMin : Bool) : ∃ s, split h1 h2 env b needMin = .ok s ∧ b.off1 ≤ s.i1 ∧ s.i1 ≤ b.lim1 ∧ b.off2 ≤ s.i2 ∧ s.i2 ≤ b.lim2 ∧
    b.off1 + b.off2 < s.i1 + s.i2 ∧ s.i1 + s.i2 < b.lim1 + b.lim2 := by
  have w2 := w.a2; have w5 := w.b2
  unfold split
  dsimp only
  refine splitLoop_eq w needMin _ 0 1 _ ⟨rfl, rfl, ?_, ?_, ?_, ?_⟩ (hist_zero w) (by push_cast; omega)
  · simp only [hi, mid, bp]; omega
  · simp only [lo, mid, bp]; omega
  · intro d hd
    have e : d = b.off1 - b.off2 := by
      have := hd.1; have := hd.2.1
      simp only [lo, hi, mid, fp] at *
      omega
    subst e
    show KV.set (fun _ => none) _ _ _ = _
    rw [KV.set, if_pos rfl]
    rfl
  · intro d hd
    have e : d = b.lim1 - b.lim2 := by
      have := hd.1; have := hd.2.1
      simp only [lo, hi, mid, bp] at *
      omega
    subst e
    show KV.set (fun _ => none) _ _ _ = _
    rw [KV.set, if_pos rfl, reach]
    simp only [bp, Int.neg_neg]

end Verif.Xdiff
