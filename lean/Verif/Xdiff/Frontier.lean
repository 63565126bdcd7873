import Verif.Xdiff.Model
/-! # How far a path through a box gets

The mathematics behind the search of `xdl_split` (deps/xdiff/xdiffi.c:48-256), away from its arrays: `reach r d` is how far, on diagonal `d`, a path goes that
begins in the corner and has taken `r` steps off the diagonals. The search backward is this search in the box seen from its other corner. -/
namespace Verif.Xdiff

theorem snake_ge {m : Int → Int → Bool} {lim1 lim2 : Int} : ∀ (n : Nat) (x y : Int), x ≤ snake m lim1 lim2 n x y := by
  intro n
  induction n with
  | zero => intro x y; exact Int.le_refl _
  | succ n ih =>
    intro x y
    rw [snake]
    split
    · have := ih (x + 1) (y + 1); omega
    · exact Int.le_refl _

theorem snake_le {m : Int → Int → Bool} {lim1 lim2 : Int} : ∀ (n : Nat) (x y : Int),
    (snake m lim1 lim2 n x y = x ∨ (snake m lim1 lim2 n x y ≤ lim1 ∧ snake m lim1 lim2 n x y - x + y ≤ lim2)) := by
  intro n
  induction n with
  | zero => intro x y; exact .inl rfl
  | succ n ih =>
    intro x y
    rw [snake]
    split
    · rename_i h
      rcases ih (x + 1) (y + 1) with e | e
      · rw [e]; right; omega
      · right; omega
    · exact .inl rfl

/-- the corner is not reached by a match -/
theorem snake_corner {m : Int → Int → Bool} {lim1 lim2 : Int} (hm : m (lim1 - 1) (lim2 - 1) = false) : ∀ (n : Nat) (x y : Int),
    lim1 ≤ snake m lim1 lim2 n x y → lim2 ≤ snake m lim1 lim2 n x y - x + y → lim1 ≤ x ∧ lim2 ≤ y := by
  intro n
  induction n with
  | zero =>
    intro x y h1 h2
    simp only [snake] at h1 h2
    omega
  | succ n ih =>
    intro x y
    rw [snake]
    split
    · rename_i h
      intro h1 h2
      obtain ⟨h3, h4⟩ := ih (x + 1) (y + 1) h1 (by omega)
      have e1 : x = lim1 - 1 := by omega
      have e2 : y = lim2 - 1 := by omega
      rw [e1, e2, hm] at h
      simp at h
    · intro h1 h2; omega

/-- a box, what matches in it, and a number that is less than all in it -/
structure Par where
  m : Int → Int → Bool
  off1 : Int
  lim1 : Int
  off2 : Int
  lim2 : Int
  s : Int

namespace Par

def mid (p : Par) : Int := p.off1 - p.off2
def far (p : Par) : Int := p.lim1 - p.lim2
def dmin (p : Par) : Int := p.off1 - p.lim2
def dmax (p : Par) : Int := p.lim1 - p.off2

/-- the lowest diagonal after `r` steps -/
def lo (p : Par) : Nat → Int
  | 0 => p.mid
  | r + 1 => if p.lo r > p.dmin then p.lo r - 1 else p.lo r + 1

/-- the highest diagonal after `r` steps -/
def hi (p : Par) : Nat → Int
  | 0 => p.mid
  | r + 1 => if p.hi r < p.dmax then p.hi r + 1 else p.hi r - 1

/-- how far a snake from `x` on diagonal `d` goes -/
def run (p : Par) (d x : Int) : Int := snake p.m p.lim1 p.lim2 (p.lim1 - x).toNat x (x - d)

/-- the further of what comes from the diagonals beside -/
def next (a c : Int) : Int := if a ≥ c then a + 1 else c

/-- how far a path of `r` steps goes on diagonal `d` -/
def reach (p : Par) : Nat → Int → Int
  | 0, _ => p.off1
  | r + 1, d => p.run d (next (if d - 1 < p.lo r then p.s else p.reach r (d - 1)) (if p.hi r < d + 1 then p.s else p.reach r (d + 1)))

/-- the diagonals of round `r` -/
def Dom (p : Par) (r : Nat) (d : Int) : Prop := p.lo r ≤ d ∧ d ≤ p.hi r ∧ (d - p.mid - (r : Int)) % 2 = 0

/-- a box with lines on both sides whose last lines differ -/
structure Good (p : Par) : Prop where
  h1 : p.off1 < p.lim1
  h2 : p.off2 < p.lim2
  hs : p.s < p.off1
  hm : p.m (p.lim1 - 1) (p.lim2 - 1) = false

variable {p : Par}

theorem lo_step (p : Par) (r : Nat) : (p.dmin < p.lo r ∧ p.lo (r + 1) = p.lo r - 1) ∨ (p.lo r ≤ p.dmin ∧ p.lo (r + 1) = p.lo r + 1) := by
  rw [lo]; split <;> omega

theorem hi_step (p : Par) (r : Nat) : (p.hi r < p.dmax ∧ p.hi (r + 1) = p.hi r + 1) ∨ (p.dmax ≤ p.hi r ∧ p.hi (r + 1) = p.hi r - 1) := by
  rw [hi]; split <;> omega

theorem lo_facts (g : p.Good) (r : Nat) : p.dmin ≤ p.lo r ∧ p.lo r ≤ p.mid ∧ (p.lo r - p.mid - (r : Int)) % 2 = 0 ∧ (p.lo r ≤ p.mid - r ∨ p.lo r ≤ p.dmin + 1) := by
  have h1 := g.h1; have h2 := g.h2
  induction r with
  | zero => simp only [lo, mid, dmin]; omega
  | succ r ih =>
    have := lo_step p r
    simp only [mid, dmin] at *
    omega

theorem hi_facts (g : p.Good) (r : Nat) : p.hi r ≤ p.dmax ∧ p.mid ≤ p.hi r ∧ (p.hi r - p.mid - (r : Int)) % 2 = 0 ∧ (p.mid + r ≤ p.hi r ∨ p.dmax - 1 ≤ p.hi r) := by
  have h1 := g.h1; have h2 := g.h2
  induction r with
  | zero => simp only [hi, mid, dmax]; omega
  | succ r ih =>
    have := hi_step p r
    simp only [mid, dmax] at *
    omega

theorem run_ge (d x : Int) : x ≤ p.run d x := snake_ge _ _ _

theorem run_le (d x : Int) : p.run d x = x ∨ (p.run d x ≤ p.lim1 ∧ p.run d x - d ≤ p.lim2) := by
  rcases snake_le (m := p.m) (lim1 := p.lim1) (lim2 := p.lim2) (p.lim1 - x).toNat x (x - d) with h | h
  · exact .inl h
  · right
    have e : p.run d x = snake p.m p.lim1 p.lim2 (p.lim1 - x).toNat x (x - d) := rfl
    omega

theorem run_corner (g : p.Good) (d x : Int) (h1 : p.lim1 ≤ p.run d x) (h2 : p.lim2 ≤ p.run d x - d) : p.lim1 ≤ x ∧ p.lim2 ≤ x - d := by
  have e : p.run d x = snake p.m p.lim1 p.lim2 (p.lim1 - x).toNat x (x - d) := rfl
  exact snake_corner g.hm _ x (x - d) h1 (by omega)

/-- what a diagonal gets from the round before: from below, or from above if that is further -/
theorem reach_succ (g : p.Good) {r : Nat} (hb : ∀ d, p.Dom r d → p.off1 ≤ p.reach r d) {d : Int} (hd : p.Dom (r + 1) d) :
    ∃ x, p.reach (r + 1) d = p.run d x ∧
      ((p.Dom r (d - 1) ∧ x = p.reach r (d - 1) + 1 ∧ (p.Dom r (d + 1) → p.reach r (d + 1) ≤ p.reach r (d - 1))) ∨
       (p.Dom r (d + 1) ∧ x = p.reach r (d + 1) ∧ (p.Dom r (d - 1) → p.reach r (d - 1) < p.reach r (d + 1)))) := by
  have l1 := lo_facts g r; have l2 := lo_step p r
  have l3 := hi_facts g r; have l4 := hi_step p r
  have hs := g.hs
  obtain ⟨d1, d2, d3⟩ := hd
  refine ⟨_, rfl, ?_⟩
  have par : ∀ k : Int, k = 1 ∨ k = -1 → (d + k - p.mid - (r : Int)) % 2 = 0 := by
    intro k hk; push_cast at d3; omega
  have pm := par (-1) (.inr rfl)
  have pp := par 1 (.inl rfl)
  by_cases ha : d - 1 < p.lo r
  · have hc : ¬ p.hi r < d + 1 := by omega
    have hdc : p.Dom r (d + 1) := ⟨by omega, by omega, pp⟩
    right
    have := hb _ hdc
    refine ⟨hdc, ?_, fun h => absurd h.1 (by omega)⟩
    rw [if_pos ha, if_neg hc, next, if_neg (by omega)]
  · by_cases hc : p.hi r < d + 1
    · have hda : p.Dom r (d - 1) := ⟨by omega, by omega, pm⟩
      left
      have := hb _ hda
      refine ⟨hda, ?_, fun h => absurd h.2.1 (by omega)⟩
      rw [if_neg ha, if_pos hc, next, if_pos (by omega)]
    · have hda : p.Dom r (d - 1) := ⟨by omega, by omega, pm⟩
      have hdc : p.Dom r (d + 1) := ⟨by omega, by omega, pp⟩
      rw [if_neg ha, if_neg hc, next]
      by_cases h : p.reach r (d - 1) ≥ p.reach r (d + 1)
      · left; rw [if_pos h]; exact ⟨hda, rfl, fun _ => h⟩
      · right; rw [if_neg h]; exact ⟨hdc, rfl, fun _ => by omega⟩

/-- a path stays right of and above its corner and gets further with every step -/
theorem reach_ge (g : p.Good) (r : Nat) : ∀ d, p.Dom r d → p.off1 ≤ p.reach r d ∧ p.off2 ≤ p.reach r d - d ∧ p.off1 + p.off2 + r ≤ 2 * p.reach r d - d := by
  induction r with
  | zero =>
    intro d hd
    obtain ⟨d1, d2, d3⟩ := hd
    simp only [lo, hi, mid] at d1 d2
    simp only [reach]
    omega
  | succ r ih =>
    intro d hd
    obtain ⟨x, e, h⟩ := reach_succ g (fun d h => (ih d h).1) hd
    rw [e]
    have := run_ge (p := p) d x
    rcases h with ⟨h, rfl, _⟩ | ⟨h, rfl, _⟩
    · have := ih _ h; push_cast; omega
    · have := ih _ h; push_cast; omega

theorem reach_succ' (g : p.Good) {r : Nat} {d : Int} (hd : p.Dom (r + 1) d) :
    ∃ x, p.reach (r + 1) d = p.run d x ∧
      ((p.Dom r (d - 1) ∧ x = p.reach r (d - 1) + 1 ∧ (p.Dom r (d + 1) → p.reach r (d + 1) ≤ p.reach r (d - 1))) ∨
       (p.Dom r (d + 1) ∧ x = p.reach r (d + 1) ∧ (p.Dom r (d - 1) → p.reach r (d - 1) < p.reach r (d + 1)))) :=
  reach_succ g (fun d h => (reach_ge g r d h).1) hd

/-- a path gets at least as far as the paths of the round before with one more step -/
theorem reach_mono (g : p.Good) {r : Nat} {d : Int} (hd : p.Dom (r + 1) d) : (p.Dom r (d - 1) → p.reach r (d - 1) + 1 ≤ p.reach (r + 1) d) ∧ (p.Dom r (d + 1) → p.reach r (d + 1) ≤ p.reach (r + 1) d) := by
  obtain ⟨x, e, h⟩ := reach_succ' g hd
  rw [e]
  have := run_ge (p := p) d x
  rcases h with ⟨h, rfl, h'⟩ | ⟨h, rfl, h'⟩
  · exact ⟨fun _ => by omega, fun h2 => by have := h' h2; omega⟩
  · exact ⟨fun h2 => by have := h' h2; omega, fun _ => by omega⟩

/-- the paths beside the other corner have not gone by it -/
def Near (p : Par) (r : Nat) : Prop := (p.Dom r (p.far - 1) → p.reach r (p.far - 1) < p.lim1 - 1) ∧ (p.Dom r (p.far + 1) → p.reach r (p.far + 1) < p.lim1)

/-- a path that left the box to the right came from one that was already at the side, and so on -/
structure Inv (p : Par) (r : Nat) : Prop where
  h : ∀ d, p.Dom r d → ¬ (p.lim1 ≤ p.reach r d ∧ p.lim2 ≤ p.reach r d - d)
  j : ∀ d, p.Dom r d → p.lim1 < p.reach r d → p.Dom r (d - 2) ∧ p.reach r d - 1 ≤ p.reach r (d - 2)
  j' : ∀ d, p.Dom r d → p.lim2 < p.reach r d - d → p.Dom r (d + 2) ∧ p.reach r d + 1 ≤ p.reach r (d + 2)

theorem back1 (g : p.Good) {r : Nat} (i : p.Inv r) {d : Int} (hd : p.Dom (r + 1) d) (hx : p.lim1 < p.reach (r + 1) d) :
    p.Dom r (d - 1) ∧ p.reach r (d - 1) = p.reach (r + 1) d - 1 := by
  obtain ⟨x, e, h⟩ := reach_succ' g hd
  rw [e] at hx ⊢
  have hl := run_le (p := p) d x
  have hxx : p.run d x = x := by omega
  rw [hxx] at hx ⊢
  rcases h with ⟨h, rfl, h'⟩ | ⟨h, rfl, h'⟩
  · exact ⟨h, by omega⟩
  · have hj := i.j _ h hx
    rw [show d + 1 - 2 = d - 1 by omega] at hj
    have := h' hj.1
    exact ⟨hj.1, by omega⟩

theorem back2 (g : p.Good) {r : Nat} (i : p.Inv r) {d : Int} (hd : p.Dom (r + 1) d) (hx : p.lim2 < p.reach (r + 1) d - d) :
    p.Dom r (d + 1) ∧ p.reach r (d + 1) = p.reach (r + 1) d := by
  obtain ⟨x, e, h⟩ := reach_succ' g hd
  rw [e] at hx ⊢
  have hl := run_le (p := p) d x
  have hxx : p.run d x = x := by omega
  rw [hxx] at hx ⊢
  rcases h with ⟨h, rfl, h'⟩ | ⟨h, rfl, h'⟩
  · have := i.j' _ h (by omega)
    rw [show d - 1 + 2 = d + 1 by omega] at this
    have := h' this.1
    omega
  · exact ⟨h, by omega⟩

theorem inv_zero (g : p.Good) : p.Inv 0 := by
  have h1 := g.h1; have h2 := g.h2
  refine ⟨?_, ?_, ?_⟩ <;> (intro d hd; obtain ⟨d1, d2, d3⟩ := hd; simp only [lo, hi, mid] at d1 d2; simp only [reach]; omega)

theorem inv_succ (g : p.Good) {r : Nat} (i : p.Inv r) (hn : p.Near r) : p.Inv (r + 1) := by
  have h1 := g.h1; have h2 := g.h2
  have l1 := lo_facts g r; have l2 := lo_step p r; have l1' := lo_facts g (r + 1)
  have l3 := hi_facts g r; have l4 := hi_step p r; have l3' := hi_facts g (r + 1)
  simp only [dmin, dmax] at *
  have par : ∀ {d k : Int}, p.Dom (r + 1) d → k % 2 = 0 → (d + k - p.mid - ((r + 1 : Nat) : Int)) % 2 = 0 := by
    intro d k hd hk; have := hd.2.2; omega
  refine ⟨?_, ?_, ?_⟩
  · intro d hd ⟨hx, hy⟩
    by_cases hgt : p.lim1 < p.reach (r + 1) d
    · obtain ⟨b1, b2⟩ := back1 g i hd hgt
      exact i.h _ b1 (by omega)
    · by_cases hgt2 : p.lim2 < p.reach (r + 1) d - d
      · obtain ⟨b1, b2⟩ := back2 g i hd hgt2
        exact i.h _ b1 (by omega)
      · have hdf : d = p.far := by unfold far; omega
        obtain ⟨x, e, h⟩ := reach_succ' g hd
        rw [e] at hx hy
        have := run_corner g d x hx hy
        subst hdf
        rcases h with ⟨h, rfl, h'⟩ | ⟨h, rfl, h'⟩
        · have := hn.1 h; omega
        · have := hn.2 h; omega
  · intro d hd hx
    obtain ⟨b1, b2⟩ := back1 g i hd hx
    have hh := i.h _ b1
    have hd2 : p.Dom (r + 1) (d - 2) := by
      refine ⟨?_, by have := hd.2.1; omega, par hd (by omega)⟩
      have := b1.1
      rcases l2 with l2 | ⟨l2, l2'⟩
      · omega
      · by_cases hc : d - 1 = p.lo r
        · exfalso; apply hh; omega
        · have := b1.2.2; omega
    refine ⟨hd2, ?_⟩
    have := (reach_mono g hd2).2
    rw [show d - 2 + 1 = d - 1 by omega] at this
    have := this b1
    omega
  · intro d hd hx
    obtain ⟨b1, b2⟩ := back2 g i hd hx
    have hh := i.h _ b1
    have hd2 : p.Dom (r + 1) (d + 2) := by
      refine ⟨by have := hd.1; omega, ?_, par hd (by omega)⟩
      have := b1.2.1
      rcases l4 with l4 | ⟨l4, l4'⟩
      · omega
      · by_cases hc : d + 1 = p.hi r
        · exfalso; apply hh; omega
        · have := b1.2.2; omega
    refine ⟨hd2, ?_⟩
    have := (reach_mono g hd2).1
    rw [show d + 2 - 1 = d + 1 by omega] at this
    have := this b1
    omega

theorem inv_all (g : p.Good) : ∀ r, (∀ k, k < r → p.Near k) → p.Inv r := by
  intro r
  induction r with
  | zero => intro _; exact inv_zero g
  | succ r ih => intro h; exact inv_succ g (ih fun k hk => h k (by omega)) (h r (by omega))

/-- on the diagonals below the other corner's a path is not beyond the right side, on those above not beyond the top -/
theorem inside (i : p.Inv r) {d : Int} (hd : p.Dom r d) : (d ≤ p.far → p.reach r d ≤ p.lim1) ∧ (p.far ≤ d → p.reach r d - d ≤ p.lim2) := by
  have := i.h d hd
  unfold far
  constructor <;> (intro h; apply Decidable.byContradiction; intro h'; apply this; omega)

/-- the search cannot go on for ever -/
theorem bounded (g : p.Good) (r : Nat) (i : p.Inv r) : (r : Int) < (p.lim1 - p.off1) + (p.lim2 - p.off2) + 2 := by
  apply Decidable.byContradiction
  intro hr
  have h1 := g.h1; have h2 := g.h2
  have l1 := lo_facts g r; have l3 := hi_facts g r
  have e1 : p.far = p.lim1 - p.lim2 := rfl
  have e2 : p.mid = p.off1 - p.off2 := rfl
  simp only [dmin, dmax] at *
  by_cases hp : (p.far - p.mid - (r : Int)) % 2 = 0
  · have hd : p.Dom r p.far := ⟨by omega, by omega, hp⟩
    have := inside i hd
    have := reach_ge g r _ hd
    have := i.h _ hd
    omega
  · have hd : p.Dom r (p.far - 1) := ⟨by omega, by omega, by omega⟩
    have := inside i hd
    have := reach_ge g r _ hd
    omega

end Par
end Verif.Xdiff
