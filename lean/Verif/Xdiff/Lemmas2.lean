import Verif.Xdiff.Lemmas
/-! # The rounds of `split` -/
namespace Verif.Xdiff
open Par (next run reach Dom lo hi mid far dmin dmax Good Mirror Apart Near Inv Point)

/-- the search forward -/
def fp (h1 h2 : List Nat) (b : Box) : Par := ⟨same h1 h2, b.off1, b.lim1, b.off2, b.lim2, -1⟩

/-- the search backward, from the other corner -/
def bp (h1 h2 : List Nat) (b : Box) : Par := ⟨fun x y => same h1 h2 (-x - 1) (-y - 1), -b.lim1, -b.off1, -b.lim2, -b.off2, -LINE_MAX⟩

/-- a box for `split`: its first lines differ, and its last ones -/
structure InBox (h1 h2 : List Nat) (env : Env) (b : Box) : Prop where
  a1 : 0 ≤ b.off1
  a2 : b.off1 < b.lim1
  a3 : b.lim1 ≤ h1.length
  b1 : 0 ≤ b.off2
  b2 : b.off2 < b.lim2
  b3 : b.lim2 ≤ h2.length
  size : h1.length + h2.length < 2 ^ 62
  fst : same h1 h2 b.off1 b.off2 = false
  lst : same h1 h2 (b.lim1 - 1) (b.lim2 - 1) = false
  cnt : 0 < env.snakeCnt

variable {h1 h2 : List Nat} {env : Env} {b : Box}

theorem fp_good (w : InBox h1 h2 env b) : (fp h1 h2 b).Good := by
  refine ⟨w.a2, w.b2, ?_, w.lst⟩
  have := w.a1
  show (-1 : Int) < b.off1
  omega

theorem bp_good (w : InBox h1 h2 env b) : (bp h1 h2 b).Good := by
  have h1 := w.a1; have h2 := w.a2; have h3 := w.a3; have h4 := w.b1; have h5 := w.b2; have h6 := w.b3; have h7 := w.size
  refine ⟨?_, ?_, ?_, ?_⟩
  · show -b.lim1 < -b.off1; omega
  · show -b.lim2 < -b.off2; omega
  · show -LINE_MAX < -b.lim1; unfold LINE_MAX; omega
  · show same _ _ (-(-b.off1 - 1) - 1) (-(-b.off2 - 1) - 1) = false
    rw [show -(-b.off1 - 1) - 1 = b.off1 by omega, show -(-b.off2 - 1) - 1 = b.off2 by omega]
    exact w.fst

theorem fb_mirror : Mirror (fp h1 h2 b) (bp h1 h2 b) := ⟨rfl, rfl, rfl, rfl⟩

theorem heurForward_eq (w : InBox h1 h2 env b) {ec : Int} {k : KV} : ∀ (ds : List Int) (best : Int) (s : Int × Int), (∀ d ∈ ds, ∃ x, k d = some x) →
    (best > 0 → (fp h1 h2 b).Point s.1 s.2) → ∃ best' s', heurForward h1 h2 env b ec k ds best s = .ok (best', s') ∧ (best' > 0 → (fp h1 h2 b).Point s'.1 s'.2) := by
  intro ds
  induction ds with
  | nil => intro best s _ hs; exact ⟨best, s, rfl, hs⟩
  | cons d ds ih =>
    intro best s hk hs
    obtain ⟨x, hx⟩ := hk d (by simp)
    rw [heurForward, hx]
    dsimp only
    have hk' : ∀ d ∈ ds, ∃ x, k d = some x := fun e he => hk e (List.mem_cons_of_mem _ he)
    split
    · rename_i h
      apply ih _ _ hk'
      intro _
      have := w.cnt
      show b.off1 ≤ x ∧ x ≤ b.lim1 ∧ b.off2 ≤ x - d ∧ x - d ≤ b.lim2 ∧ b.off1 + b.off2 < x + (x - d) ∧ x + (x - d) < b.lim1 + b.lim2
      omega
    · exact ih _ _ hk' hs

theorem heurBackward_eq (w : InBox h1 h2 env b) {ec : Int} {k : KV} : ∀ (ds : List Int) (best : Int) (s : Int × Int), (∀ d ∈ ds, ∃ x, k d = some x) →
    (best > 0 → (fp h1 h2 b).Point s.1 s.2) → ∃ best' s', heurBackward h1 h2 env b ec k ds best s = .ok (best', s') ∧ (best' > 0 → (fp h1 h2 b).Point s'.1 s'.2) := by
  intro ds
  induction ds with
  | nil => intro best s _ hs; exact ⟨best, s, rfl, hs⟩
  | cons d ds ih =>
    intro best s hk hs
    obtain ⟨x, hx⟩ := hk d (by simp)
    rw [heurBackward, hx]
    dsimp only
    have hk' : ∀ d ∈ ds, ∃ x, k d = some x := fun e he => hk e (List.mem_cons_of_mem _ he)
    split
    · rename_i h
      apply ih _ _ hk'
      intro _
      have := w.cnt
      show b.off1 ≤ x ∧ x ≤ b.lim1 ∧ b.off2 ≤ x - d ∧ x - d ≤ b.lim2 ∧ b.off1 + b.off2 < x + (x - d) ∧ x + (x - d) < b.lim1 + b.lim2
      omega
    · exact ih _ _ hk' hs

theorem furthest_eq {k : KV} : ∀ (ds : List Int) (f f1 : Int), (∀ d ∈ ds, ∃ x, k d = some x ∧ (fp h1 h2 b).Point ((fp h1 h2 b).cut d x) ((fp h1 h2 b).cut d x - d)) →
    ∃ r, furthest b k ds f f1 = .ok r ∧ ((fp h1 h2 b).Point r.2 (r.1 - r.2) ∨ (r = (f, f1) ∧ ∀ d ∈ ds, ∀ x, k d = some x → (fp h1 h2 b).cut d x + ((fp h1 h2 b).cut d x - d) ≤ f)) := by
  intro ds
  induction ds with
  | nil => intro f f1 _; exact ⟨_, rfl, .inr ⟨rfl, by simp⟩⟩
  | cons d ds ih =>
    intro f f1 hk
    obtain ⟨x, hx, hp⟩ := hk d (by simp)
    have hk' := fun e he => hk e (List.mem_cons_of_mem d he)
    rw [furthest, hx]
    dsimp only
    have e : (if b.lim2 < min x b.lim1 - d then b.lim2 + d else min x b.lim1) = (fp h1 h2 b).cut d x := rfl
    rw [e]
    by_cases h : f < (fp h1 h2 b).cut d x + ((fp h1 h2 b).cut d x - d)
    · rw [if_pos h]
      obtain ⟨r, e1, e2⟩ := ih ((fp h1 h2 b).cut d x + ((fp h1 h2 b).cut d x - d)) ((fp h1 h2 b).cut d x) hk'
      refine ⟨r, e1, .inl ?_⟩
      rcases e2 with e2 | ⟨rfl, _⟩
      · exact e2
      · dsimp only
        rw [show (fp h1 h2 b).cut d x + ((fp h1 h2 b).cut d x - d) - (fp h1 h2 b).cut d x = (fp h1 h2 b).cut d x - d by omega]
        exact hp
    · rw [if_neg h]
      obtain ⟨r, e1, e2⟩ := ih f f1 hk'
      refine ⟨r, e1, e2.imp id ?_⟩
      rintro ⟨e2, e3⟩
      refine ⟨e2, ?_⟩
      intro e he y hy
      rcases List.mem_cons.mp he with rfl | he
      · rw [hx] at hy; cases hy; omega
      · exact e3 e he y hy

/-- the end of a path backward, cut off at the sides -/
def bcut (b : Box) (d x : Int) : Int := if max b.off1 x - d < b.off2 then b.off2 + d else max b.off1 x

theorem bcut_eq (d x : Int) : bcut b d x = -(bp h1 h2 b).cut (-d) (-x) := by
  unfold bcut Par.cut bp
  dsimp only
  by_cases h : max b.off1 x - d < b.off2
  · rw [if_pos h, if_pos (by omega)]; omega
  · rw [if_neg h, if_neg (by omega)]; omega

theorem nearest_eq {k : KV} : ∀ (ds : List Int) (f f1 : Int), (∀ d ∈ ds, ∃ x, k d = some x ∧ (fp h1 h2 b).Point (bcut b d x) (bcut b d x - d)) →
    ∃ r, nearest b k ds f f1 = .ok r ∧ ((fp h1 h2 b).Point r.2 (r.1 - r.2) ∨ (r = (f, f1) ∧ ∀ d ∈ ds, ∀ x, k d = some x → f ≤ bcut b d x + (bcut b d x - d))) := by
  intro ds
  induction ds with
  | nil => intro f f1 _; exact ⟨_, rfl, .inr ⟨rfl, by simp⟩⟩
  | cons d ds ih =>
    intro f f1 hk
    obtain ⟨x, hx, hp⟩ := hk d (by simp)
    have hk' := fun e he => hk e (List.mem_cons_of_mem d he)
    rw [nearest, hx]
    dsimp only
    have e : (if max b.off1 x - d < b.off2 then b.off2 + d else max b.off1 x) = bcut b d x := rfl
    rw [e]
    by_cases h : bcut b d x + (bcut b d x - d) < f
    · rw [if_pos h]
      obtain ⟨r, e1, e2⟩ := ih (bcut b d x + (bcut b d x - d)) (bcut b d x) hk'
      refine ⟨r, e1, .inl ?_⟩
      rcases e2 with e2 | ⟨rfl, _⟩
      · exact e2
      · dsimp only
        rw [show bcut b d x + (bcut b d x - d) - bcut b d x = bcut b d x - d by omega]
        exact hp
    · rw [if_neg h]
      obtain ⟨r, e1, e2⟩ := ih f f1 hk'
      refine ⟨r, e1, e2.imp id ?_⟩
      rintro ⟨e2, e3⟩
      refine ⟨e2, ?_⟩
      intro e he y hy
      rcases List.mem_cons.mp he with rfl | he
      · rw [hx] at hy; cases hy; omega
      · exact e3 e he y hy

theorem point_back {x y : Int} (h : (bp h1 h2 b).Point x y) : (fp h1 h2 b).Point (-x) (-y) := by
  obtain ⟨a1, a2, a3, a4, a5, a6⟩ := h
  simp only [bp] at a1 a2 a3 a4 a5 a6
  refine ⟨?_, ?_, ?_, ?_, ?_, ?_⟩ <;> (simp only [fp]; omega)

/-- the state after `r` rounds -/
structure After (h1 h2 : List Nat) (b : Box) (r : Nat) (st : St) : Prop where
  f1 : st.fmin = (fp h1 h2 b).lo r
  f2 : st.fmax = (fp h1 h2 b).hi r
  g1 : st.bmin = -(bp h1 h2 b).hi r
  g2 : st.bmax = -(bp h1 h2 b).lo r
  kf : ∀ d, (fp h1 h2 b).Dom r d → st.kvdf d = some ((fp h1 h2 b).reach r d)
  kb : ∀ d, (bp h1 h2 b).Dom r (-d) → st.kvdb d = some (-(bp h1 h2 b).reach r (-d))

theorem dom_back (w : InBox h1 h2 env b) {r : Nat} {d : Int} : (bp h1 h2 b).Dom r (-d) ↔ d ∈ diags (-(bp h1 h2 b).hi r) (-(bp h1 h2 b).lo r) := by
  rw [dom_iff (bp_good w), mem_diags, mem_diags]
  have h1 := (Par.hi_facts (bp_good w) r).2.2.1
  have h2 := (Par.lo_facts (bp_good w) r).2.2.1
  omega

theorem giveUp_eq (w : InBox h1 h2 env b) {needMin got : Bool} {ec : Int} {r : Nat} {st : St} (a : After h1 h2 b r st) (hr : 1 ≤ r) (i : (fp h1 h2 b).Inv r) (j : (bp h1 h2 b).Inv r) :
    giveUp h1 h2 env b needMin ec st got = .ok none ∨ ∃ s, giveUp h1 h2 env b needMin ec st got = .ok (some s) ∧ (fp h1 h2 b).Point s.i1 s.i2 := by
  have gf := fp_good w
  have gb := bp_good w
  have hkf : ∀ d ∈ diags st.fmin st.fmax, ∃ x, st.kvdf d = some x ∧ (fp h1 h2 b).Point ((fp h1 h2 b).cut d x) ((fp h1 h2 b).cut d x - d) := by
    intro d hd
    rw [a.f1, a.f2] at hd
    have hd := (dom_iff gf).mpr hd
    exact ⟨_, a.kf d hd, Par.cut_point gf hr i hd⟩
  have hkb : ∀ d ∈ diags st.bmin st.bmax, ∃ x, st.kvdb d = some x ∧ (fp h1 h2 b).Point (bcut b d x) (bcut b d x - d) := by
    intro d hd
    rw [a.g1, a.g2] at hd
    have hd := (dom_back w).mpr hd
    refine ⟨_, a.kb d hd, ?_⟩
    rw [bcut_eq (h1 := h1) (h2 := h2), Int.neg_neg]
    have := point_back (Par.cut_point gb hr j hd)
    rwa [show -((bp h1 h2 b).cut (-d) ((bp h1 h2 b).reach r (-d)) - -d) = -(bp h1 h2 b).cut (-d) ((bp h1 h2 b).reach r (-d)) - d by omega] at this
  have key : ∀ o : Option Spl, (∀ s, o = some s → (fp h1 h2 b).Point s.i1 s.i2) →
      ((match o with
        | some s => .ok (some s)
        | none => if ec ≥ env.mxcost then
          furthest b st.kvdf (diags st.fmin st.fmax) (-1) (-1) >>= fun f =>
          nearest b st.kvdb (diags st.bmin st.bmax) LINE_MAX LINE_MAX >>= fun r =>
          if (b.lim1 + b.lim2) - r.1 < f.1 - (b.off1 + b.off2) then .ok (some ⟨f.2, f.1 - f.2, true, false⟩)
          else .ok (some ⟨r.2, r.1 - r.2, false, true⟩)
        else .ok none : Res (Option Spl)) = .ok none ∨ ∃ s, (match o with
        | some s => .ok (some s)
        | none => if ec ≥ env.mxcost then
          furthest b st.kvdf (diags st.fmin st.fmax) (-1) (-1) >>= fun f =>
          nearest b st.kvdb (diags st.bmin st.bmax) LINE_MAX LINE_MAX >>= fun r =>
          if (b.lim1 + b.lim2) - r.1 < f.1 - (b.off1 + b.off2) then .ok (some ⟨f.2, f.1 - f.2, true, false⟩)
          else .ok (some ⟨r.2, r.1 - r.2, false, true⟩)
        else .ok none : Res (Option Spl)) = .ok (some s) ∧ (fp h1 h2 b).Point s.i1 s.i2) := by
    intro o ho
    cases o with
    | some s => exact .inr ⟨s, rfl, ho s rfl⟩
    | none =>
      dsimp only
      by_cases hc : ec ≥ env.mxcost
      · right
        rw [if_pos hc]
        obtain ⟨f, e1, e2⟩ := furthest_eq (diags st.fmin st.fmax) (-1) (-1) hkf
        obtain ⟨q, e3, e4⟩ := nearest_eq (diags st.bmin st.bmax) LINE_MAX LINE_MAX hkb
        rw [e1, Res.bind_ok, e3, Res.bind_ok]
        have hA := w.a1; have hB := w.b1; have hC := w.a3; have hD := w.b3; have hE := w.size
        have hff : st.fmax ∈ diags st.fmin st.fmax := by
          apply diags_ne
          rw [a.f1, a.f2]
          have := (Par.lo_facts gf r).2.1
          have := (Par.hi_facts gf r).2.1
          omega
        have hbb : st.bmax ∈ diags st.bmin st.bmax := by
          apply diags_ne
          rw [a.g1, a.g2]
          have := (Par.lo_facts gb r).2.1
          have := (Par.hi_facts gb r).2.1
          omega
        have e2 : (fp h1 h2 b).Point f.2 (f.1 - f.2) := by
          rcases e2 with e2 | ⟨_, e2⟩
          · exact e2
          · obtain ⟨x, hx, p1, p2, p3, p4, p5, p6⟩ := hkf _ hff
            have := e2 _ hff x hx
            exfalso
            have : b.off1 + b.off2 < (fp h1 h2 b).cut st.fmax x + ((fp h1 h2 b).cut st.fmax x - st.fmax) := p5
            omega
        have e4 : (fp h1 h2 b).Point q.2 (q.1 - q.2) := by
          rcases e4 with e4 | ⟨_, e4⟩
          · exact e4
          · obtain ⟨x, hx, p1, p2, p3, p4, p5, p6⟩ := hkb _ hbb
            have := e4 _ hbb x hx
            exfalso
            have : bcut b st.bmax x + (bcut b st.bmax x - st.bmax) < b.lim1 + b.lim2 := p6
            unfold LINE_MAX at *
            omega
        split
        · exact ⟨_, rfl, e2⟩
        · exact ⟨_, rfl, e4⟩
      · left; rw [if_neg hc]
  unfold giveUp
  cases needMin with
  | true => left; rfl
  | false =>
    rw [if_neg (by simp)]
    by_cases hg : got = true ∧ ec > env.heurMin
    · rw [if_pos hg]
      obtain ⟨f, fs, e1, e2⟩ := heurForward_eq w (ec := ec) (diags st.fmin st.fmax) 0 (0, 0) (fun d hd => by obtain ⟨x, hx, _⟩ := hkf d hd; exact ⟨x, hx⟩) (by simp)
      rw [e1, Res.bind_ok]
      dsimp only
      by_cases hf : f > 0
      · rw [if_pos hf, Res.bind_ok]
        exact key (some _) (by intro s hs; cases hs; exact e2 hf)
      · rw [if_neg hf]
        obtain ⟨q, qs, e3, e4⟩ := heurBackward_eq w (ec := ec) (diags st.bmin st.bmax) 0 (0, 0) (fun d hd => by obtain ⟨x, hx, _⟩ := hkb d hd; exact ⟨x, hx⟩) (by simp)
        rw [e3, Res.bind_ok]
        dsimp only
        by_cases hq : q > 0
        · rw [if_pos hq, Res.bind_ok]
          exact key (some _) (by intro s hs; cases hs; exact e4 hq)
        · rw [if_neg hq, Res.bind_ok]
          exact key none (by simp)
    · rw [if_neg hg, Res.bind_ok]
      exact key none (by simp)

end Verif.Xdiff
