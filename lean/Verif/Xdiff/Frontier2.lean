import Verif.Xdiff.Frontier
/-! # Where the two searches meet -/
namespace Verif.Xdiff
namespace Par

/-- the same box, seen from the other corner -/
structure Mirror (p q : Par) : Prop where
  e1 : q.off1 = -p.lim1
  e2 : q.lim1 = -p.off1
  e3 : q.off2 = -p.lim2
  e4 : q.lim2 = -p.off2

theorem Mirror.symm {p q : Par} (h : Mirror p q) : Mirror q p := by
  obtain ⟨e1, e2, e3, e4⟩ := h
  exact ⟨by omega, by omega, by omega, by omega⟩

/-- after `k` steps from one corner and `l` from the other the paths have not met -/
def Apart (p q : Par) (k l : Nat) : Prop := ∀ d, p.Dom k d → q.Dom l (-d) → p.reach k d + q.reach l (-d) < 0

theorem Apart.symm {p q : Par} {k l : Nat} (h : Apart p q k l) : Apart q p l k := by
  intro d h1 h2
  have := h (-d) h2 (by rwa [Int.neg_neg])
  rw [Int.neg_neg] at this
  omega

variable {p q : Par}

theorem near_of (gp : p.Good) (gq : q.Good) (m : Mirror p q) {k l : Nat} (hp : (p.far - p.mid - (k : Int) - (l : Int)) % 2 = 0) (ha : Apart p q k l) : p.Near k := by
  obtain ⟨e1, e2, e3, e4⟩ := m
  have em : q.mid = -p.far := by unfold mid far; omega
  have ef : p.far = p.lim1 - p.lim2 := rfl
  have l1 := lo_facts gq l
  have l2 := hi_facts gq l
  constructor
  · intro h
    have hpar := h.2.2
    have hd : q.Dom l (-(p.far - 1)) := ⟨by omega, by omega, by omega⟩
    have := ha _ h hd
    have := reach_ge gq l _ hd
    omega
  · intro h
    have hpar := h.2.2
    have hd : q.Dom l (-(p.far + 1)) := ⟨by omega, by omega, by omega⟩
    have := ha _ h hd
    have := reach_ge gq l _ hd
    omega

theorem near_zero (gp : p.Good) : p.Near 0 := by
  have h1 := gp.h1; have h2 := gp.h2
  constructor <;> (intro h; obtain ⟨d1, d2, d3⟩ := h; simp only [lo, hi, mid, far] at d1 d2; simp only [reach]; omega)

/-- a point of the box, and neither of its corners -/
def Point (p : Par) (x y : Int) : Prop :=
  p.off1 ≤ x ∧ x ≤ p.lim1 ∧ p.off2 ≤ y ∧ y ≤ p.lim2 ∧ p.off1 + p.off2 < x + y ∧ x + y < p.lim1 + p.lim2

/-- where the paths meet for the first time is in the box -/
theorem met (gp : p.Good) (gq : q.Good) (m : Mirror p q) {r l : Nat} (i : p.Inv r) (i' : p.Inv (r + 1)) (hp : (p.far - p.mid - (r : Int) - 1 - (l : Int)) % 2 = 0)
    (ha : ∀ l', l = l' + 1 → Apart p q r l') {d : Int} (hd : p.Dom (r + 1) d) (hd' : q.Dom l (-d)) : p.Point (p.reach (r + 1) d) (p.reach (r + 1) d - d) := by
  obtain ⟨e1, e2, e3, e4⟩ := m
  have em : q.mid = -p.far := by unfold mid far; omega
  have ef : p.far = p.lim1 - p.lim2 := rfl
  have hg := reach_ge gp _ _ hd
  have hin := inside i' hd
  have hh := i'.h _ hd
  have hpar := hd.2.2
  obtain ⟨q1, q2, q3⟩ := hd'
  push_cast at hg hpar
  have hx : p.reach (r + 1) d ≤ p.lim1 := by
    apply Decidable.byContradiction
    intro hx
    have hfd : p.far < d := by omega
    cases l with
    | zero => simp only [lo, hi] at q1 q2; omega
    | succ l =>
      obtain ⟨b1, b2⟩ := back1 gp i hd (by omega)
      have l1 := lo_facts gq l; have l2 := lo_step q l; have l3 := hi_facts gq l
      have hdq : q.Dom l (-(d - 1)) := ⟨by omega, by omega, by push_cast at q3; omega⟩
      have := ha l rfl _ b1 hdq
      have := reach_ge gq l _ hdq
      omega
  have hy : p.reach (r + 1) d - d ≤ p.lim2 := by
    apply Decidable.byContradiction
    intro hy
    have hfd : d < p.far := by omega
    cases l with
    | zero => simp only [lo, hi] at q1 q2; omega
    | succ l =>
      obtain ⟨b1, b2⟩ := back2 gp i hd (by omega)
      have l1 := lo_facts gq l; have l2 := hi_step q l; have l3 := hi_facts gq l
      have hdq : q.Dom l (-(d + 1)) := ⟨by omega, by omega, by push_cast at q3; omega⟩
      have := ha l rfl _ b1 hdq
      have := reach_ge gq l _ hdq
      omega
  refine ⟨by omega, hx, by omega, hy, by omega, by omega⟩

/-- a path cut off at the sides of the box ends in the box -/
def cut (p : Par) (d x : Int) : Int := if p.lim2 < min x p.lim1 - d then p.lim2 + d else min x p.lim1

theorem cut_point (gp : p.Good) {r : Nat} (hr : 1 ≤ r) (i : p.Inv r) {d : Int} (hd : p.Dom r d) : p.Point (p.cut d (p.reach r d)) (p.cut d (p.reach r d) - d) := by
  have h1 := gp.h1; have h2 := gp.h2
  have hg := reach_ge gp _ _ hd
  have hh := i.h _ hd
  have l1 := lo_facts gp r; have l3 := hi_facts gp r
  obtain ⟨d1, d2, d3⟩ := hd
  simp only [dmin, dmax] at *
  unfold cut Point
  split <;> omega

end Par
end Verif.Xdiff
