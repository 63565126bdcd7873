import Verif.Sort.LemmasTim
import Mathlib.Tactic.Linarith
import Mathlib.Tactic.Ring
import Mathlib.Tactic.IntervalCases
/-! # The depth of the run stack

`collapse` only looks at the top three runs, so the well known invariant (every run longer than the two above it together) can be
broken further down. What remains true is recorded here with a number kept beside a run: `none` for a run whose triple is in order, and
`some A` for a run made by merging a run of length `A` with those above it while a run longer than `A` stayed on top. -/
namespace Verif.Sort
open Spec

/-- a run's length, with what is known of how it was made -/
abbrev El := Nat × Option Nat

mutual
/-- the stack `e :: R` below a run of length at least `u` -/
def Body (u : Nat) : El → List El → Prop
  | (t, none), [] => True
  | (t, none), [(t1, g1)] => t < t1 ∧ Body t (t1, g1) []
  | (t, none), (t1, g1) :: (t2, g2) :: R => t + t1 < t2 ∧ t < t1 ∧ Body t (t1, g1) ((t2, g2) :: R)
  | (t, some A), [] => A < u ∧ A ≤ t ∧ t ≤ 7 * A
  | (t, some A), (t1, g1) :: R => A < u ∧ A ≤ t ∧ t ≤ 7 * A ∧ t + A < t1 ∧ Body A (t1, g1) R
end

/-- the stack `R` below a run of length `s` -/
def Good (u s : Nat) : List El → Prop
  | [] => True
  | e :: R => s < e.1 ∧ Body u e R

theorem body_none {u t : Nat} {R : List El} : Body u (t, none) R ↔
    (∀ e1 e2 R', R = e1 :: e2 :: R' → t + e1.1 < e2.1) ∧ Good t t R := by
  match R with
  | [] => simp [Body, Good]
  | [(t1, g1)] => simp [Body, Good]
  | (t1, g1) :: (t2, g2) :: R =>
    rw [Body]
    simp only [Good]
    constructor
    · rintro ⟨h1, h2, h3⟩
      exact ⟨by intro e1 e2 R' e; cases e; exact h1, h2, h3⟩
    · rintro ⟨h1, h2, h3⟩
      exact ⟨h1 _ _ _ rfl, h2, h3⟩

theorem body_some {u t A : Nat} {R : List El} : Body u (t, some A) R ↔
    A < u ∧ A ≤ t ∧ t ≤ 7 * A ∧ (∀ e1 R', R = e1 :: R' → t + A < e1.1) ∧ Good A t R := by
  match R with
  | [] => simp [Body, Good]
  | (t1, g1) :: R =>
    rw [Body]
    simp only [Good]
    constructor
    · rintro ⟨h1, h2, h3, h4, h5⟩
      exact ⟨h1, h2, h3, by intro e1 R' e; cases e; exact h4, by omega, h5⟩
    · rintro ⟨h1, h2, h3, h4, h5, h6⟩
      exact ⟨h1, h2, h3, h4 _ _ rfl, h6⟩

theorem Body.mono {u u' : Nat} {e : El} {R : List El} (h : Body u e R) (hu : u ≤ u') : Body u' e R := by
  match e with
  | (t, none) => rw [body_none] at h ⊢; exact h
  | (t, some A) => rw [body_some] at h ⊢; exact ⟨by omega, h.2⟩

theorem Good.mono {u u' s s' : Nat} {R : List El} (h : Good u s R) (hu : u ≤ u') (hs : ∀ e R', R = e :: R' → s' < e.1) : Good u' s' R := by
  match R with
  | [] => trivial
  | e :: R => exact ⟨hs _ _ rfl, h.2.mono hu⟩

/-- what is below `e` -/
theorem Body.tail {u t : Nat} {g : Option Nat} {R : List El} (h : Body u (t, g) R) : Good t t R := by
  match g with
  | none => exact (body_none.mp h).2
  | some A =>
    obtain ⟨h1, h2, h3, h4, h5⟩ := body_some.mp h
    exact h5.mono h2 (by intro e R' e1; have := h4 e R' e1; omega)

/-! ### every run is longer than a sixth of what is above it -/

/-- `S` is what lies above the runs `R` -/
def QB (S : Nat) : List El → Prop
  | [] => True
  | e :: R => S ≤ 6 * e.1 ∧ QB (S + e.1) R

theorem quad (m : Int) : 0 ≤ m * m - 7 * m + 16 := by nlinarith [sq_nonneg (2 * m - 7)]

theorem qb_aux (R : List El) : ∀ (u p q Qp S : Nat) (gp gq : Option Nat), Body u (p, gp) ((q, gq) :: R) → p < q →
    Qp ≤ 6 * p → Qp + p ≤ 6 * q → S = Qp + p + q →
    (∀ A, gp = some A → S ≤ 6 * q ∧ ∃ m : Nat, 1 ≤ m ∧ 2 * (S : Int) + A * (m * m + 7 * m - 8) ≤ 2 * (m + 4) * q) → QB S R := by
  induction R with
  | nil => intros; trivial
  | cons e R ih =>
    obtain ⟨t, g⟩ := e
    intro u p q Qp S gp gq hb hpq h1 h2 hS hV
    have hBq : ∃ u', Body u' (q, gq) ((t, g) :: R) := by
      have := hb.tail
      exact ⟨_, this.2⟩
    obtain ⟨u', hBq⟩ := hBq
    have hqt : q < t := hBq.tail.1
    have hN : gp = none → p + q < t := by
      intro h; subst h
      exact (body_none.mp hb).1 _ _ _ rfl
    have hfirst : S ≤ 6 * t := by
      cases gp with
      | none => have := hN rfl; omega
      | some A => have := (hV A rfl).1; omega
    refine ⟨hfirst, ?_⟩
    apply ih u' q t (Qp + p) (S + t) gq g hBq hqt h2 (by omega) (by omega)
    intro B hB
    subst hB
    obtain ⟨c1, c2, c3, c4, c5⟩ := body_some.mp hBq
    have c4' : q + B < t := c4 _ _ rfl
    cases gp with
    | none =>
      have := hN rfl
      refine ⟨by omega, 1, by omega, ?_⟩
      push_cast
      have : S ≤ 4 * t := by omega
      linarith [(by exact_mod_cast this : (S : Int) ≤ 4 * t)]
    | some A =>
      obtain ⟨b1, m, hm, b2⟩ := hV A rfl
      have hBA : B < A := by
        have := (body_some.mp hb).2.2.2.2.2
        exact (body_some.mp this).1
      have hcoef : (0 : Int) ≤ (m : Int) * m + 7 * m - 8 := by
        have : (1 : Int) ≤ m := by exact_mod_cast hm
        nlinarith
      have b3 : 2 * (S : Int) + B * (m * m + 7 * m - 8) ≤ 2 * (m + 4) * q := by
        have : (B : Int) * (m * m + 7 * m - 8) ≤ A * (m * m + 7 * m - 8) :=
          mul_le_mul_of_nonneg_right (by exact_mod_cast hBA.le) hcoef
        linarith
      have hm1 : (1 : Int) ≤ m := by exact_mod_cast hm
      have i1 : (q : Int) + B + 1 ≤ t := by exact_mod_cast c4'
      have i2 : (q : Int) ≤ 7 * B := by exact_mod_cast c3
      have i3 : (0 : Int) ≤ B := by positivity
      refine ⟨?_, m + 1, by omega, ?_⟩
      · have : (S : Int) ≤ 5 * t := by
          nlinarith [quad m, mul_nonneg i3 (quad m), mul_nonneg (by linarith : (0:Int) ≤ 7 * B - q) (by linarith : (0 : Int) ≤ (m : Int) - 1)]
        have : S ≤ 5 * t := by exact_mod_cast this
        omega
      · push_cast
        nlinarith [mul_nonneg (by linarith : (0 : Int) ≤ t - (q + B)) (by linarith : (0 : Int) ≤ (m : Int) + 4)]

/-! ### growth -/

def lastval (t : Nat) : List El → Nat
  | [] => t
  | e :: R => lastval e.1 R

theorem num (k : Nat) (v t W : Nat) (hk : k ≤ 7) (h1 : 8 * v ≤ (8 - k) * t) (h2 : 2 * W ≤ v ^ 3) : W * 2 ^ k ≤ t ^ 3 := by
  have h3 : (8 * v) ^ 3 ≤ ((8 - k) * t) ^ 3 := Nat.pow_le_pow_left h1 3
  rw [Nat.mul_pow, Nat.mul_pow] at h3
  interval_cases k <;> simp at h3 ⊢ <;> omega

theorem growth (n : Nat) : ∀ (R : List El), R.length ≤ n →
    (∀ u t w, Body u (t, none) R → w ≤ t ^ 3 → w * 2 ^ R.length ≤ 2 * (lastval t R) ^ 3) ∧
    (∀ u t A v k W, Body u (t, some A) R → v + k * A ≤ t → 0 < v → 2 * W ≤ v ^ 3 → k ≤ 7 → 8 * v ≤ (8 - k) * t →
      W * 2 ^ k * 2 ^ R.length ≤ 2 * (lastval t R) ^ 3) := by
  induction n with
  | zero =>
    intro R hR
    have := List.length_eq_zero_iff.mp (Nat.le_zero.mp hR)
    subst this
    constructor
    · intro u t w _ h; simp [lastval]; omega
    · intro u t A v k W _ _ _ h1 h2 h3
      have := num k v t W h2 h3 h1
      simp [lastval]; omega
  | succ n ih =>
    intro R hR
    constructor
    · intro u t w hb hw
      match R with
      | [] => simp [lastval]; omega
      | [(t1, g1)] =>
        have h := hb.tail.1
        have : t ^ 3 ≤ t1 ^ 3 := Nat.pow_le_pow_left (by simp at h; omega) 3
        simp [lastval]; omega
      | (t1, g1) :: (t2, g2) :: R =>
        obtain ⟨h1, h2, h3⟩ := body_none.mp hb
        have h1' : t + t1 < t2 := h1 _ _ _ rfl
        have h2' : t < t1 := h2
        have hB2 := h3.tail.2
        have hc : 8 * w ≤ t2 ^ 3 := by
          have : (2 * t) ^ 3 ≤ t2 ^ 3 := Nat.pow_le_pow_left (by omega) 3
          rw [Nat.mul_pow] at this; omega
        simp only [List.length_cons] at hR
        have ih' := ih R (by omega)
        cases g2 with
        | none =>
          have := ih'.1 _ t2 (8 * w) hB2 hc
          simp only [lastval, List.length_cons]
          have e : w * 2 ^ (R.length + 1 + 1) = 4 * w * 2 ^ R.length := by ring
          rw [e]
          have : 4 * w * 2 ^ R.length ≤ 8 * w * 2 ^ R.length := Nat.mul_le_mul_right _ (by omega)
          omega
        | some A =>
          have hpos : 0 < t2 := by omega
          have := ih'.2 _ t2 A t2 0 (4 * w) hB2 (by omega) hpos (by omega) (by omega) (by omega)
          simp only [lastval, List.length_cons]
          have e : w * 2 ^ (R.length + 1 + 1) = 4 * w * 2 ^ 0 * 2 ^ R.length := by ring
          rw [e]; exact this
    · intro u t A v k W hb hv hv0 hW hk h8
      match R with
      | [] =>
        have := num k v t W hk h8 hW
        simp [lastval]; omega
      | (t1, g1) :: R =>
        obtain ⟨c1, c2, c3, c4, c5⟩ := body_some.mp hb
        have c4' : t + A < t1 := c4 _ _ rfl
        have hk6 : k ≤ 6 := by
          by_contra hcon
          have : k = 7 := by omega
          subst this; omega
        have h8' : 8 * v ≤ (8 - (k + 1)) * t1 := by
          interval_cases k <;> simp at hv ⊢ <;> omega
        have hv' : v + (k + 1) * A ≤ t1 := by
          have : (k + 1) * A = k * A + A := by ring
          omega
        simp only [List.length_cons] at hR
        have ih' := ih R (by omega)
        have e : W * 2 ^ k * 2 ^ (R.length + 1) = W * 2 ^ (k + 1) * 2 ^ R.length := by ring
        simp only [lastval, List.length_cons]
        rw [e]
        cases g1 with
        | none => exact ih'.1 _ t1 _ c5.2 (num (k + 1) v t1 W (by omega) h8' hW)
        | some A1 =>
          have hA : A1 < A := (body_some.mp c5.2).1
          exact ih'.2 _ t1 A1 v (k + 1) W c5.2 (by
            have : (k + 1) * A1 ≤ (k + 1) * A := Nat.mul_le_mul_left _ hA.le
            omega) hv0 hW (by omega) h8'

/-! ### the stack when the next run is pushed, and while it is collapsed -/

/-- the lengths `st` (top first) of the runs when a run is pushed -/
def PushOK : List Nat → Prop
  | [] => True
  | x :: st => ∃ R : List El, st = R.map Prod.fst ∧ Body x (x, none) R

/-- the lengths of the runs while the stack is collapsed -/
def Loop : List Nat → Prop
  | x :: y :: st => ∃ (R : List El) (S : Nat), st = R.map Prod.fst ∧ y ≤ S ∧ QB S R ∧
      ((∃ g, Body x (y, g) R) ∨ (∃ a, a ≤ y ∧ y ≤ 7 * a ∧ a < x ∧ Good a a R))
  | _ => True

/-- pushing a run -/
theorem PushOK.push {st : List Nat} (h : PushOK st) (x : Nat) : Loop (x :: st) := by
  match st with
  | [] => trivial
  | y :: st =>
    obtain ⟨R, hR, hb⟩ := h
    refine ⟨R, y, hR, Nat.le_refl _, ?_, .inl ⟨none, ?_⟩⟩
    · match R with
      | [] => trivial
      | (z, g) :: R =>
        have hz : y < z := hb.tail.1
        refine ⟨by simp; omega, ?_⟩
        exact qb_aux R _ y z 0 (y + z) none g hb hz (by omega) (by omega) (by omega) (by intro A h; cases h)
    · rw [body_none] at hb ⊢; exact hb

/-- nothing to merge -/
theorem Loop.done {x y : Nat} {st : List Nat} (h : Loop (x :: y :: st)) (hxy : x < y) (ht : ∀ z st', st = z :: st' → x + y < z) :
    PushOK (x :: y :: st) := by
  obtain ⟨R, S, hR, hS, hq, hc⟩ := h
  have top : ∀ g, Body x (y, g) R → PushOK (x :: y :: st) := by
    intro g hg
    refine ⟨(y, g) :: R, by simp [hR], ?_⟩
    rw [body_none]
    refine ⟨?_, hxy, hg⟩
    intro e1 e2 R' he
    cases he
    exact ht _ _ hR
  rcases hc with ⟨g, hg⟩ | ⟨a, h1, h2, h3, h4⟩
  · exact top g hg
  · apply top (some a)
    rw [body_some]
    refine ⟨h3, h1, h2, ?_, ?_⟩
    · intro e1 R' he
      subst he
      have := ht _ _ hR
      omega
    · apply h4.mono (Nat.le_refl _)
      intro e R' he
      subst he
      have := ht _ _ hR
      omega

/-- what is known of the runs below the second -/
theorem Loop.below {x y z : Nat} {st : List Nat} (h : Loop (x :: y :: z :: st)) :
    ∃ (R : List El) (S : Nat) (g : Option Nat), st = R.map Prod.fst ∧ y ≤ S ∧ S ≤ 6 * z ∧ QB (S + z) R ∧ Body y (z, g) R := by
  obtain ⟨R, S, hR, hS, hq, hc⟩ := h
  match R with
  | [] => simp at hR
  | (t, g) :: R =>
    simp only [List.map_cons, List.cons.injEq] at hR
    obtain ⟨rfl, hR⟩ := hR
    refine ⟨R, S, g, hR, hS, hq.1, hq.2, ?_⟩
    rcases hc with ⟨g0, hg⟩ | ⟨a, h1, h2, h3, h4⟩
    · exact hg.tail.2
    · exact h4.2.mono h1

theorem Loop.bury {x y z : Nat} {st : List Nat} (h : Loop (x :: y :: z :: st)) (hz : z < x) : Loop (x :: (z + y) :: st) := by
  obtain ⟨R, S, g, hR, h1, h2, h3, h4⟩ := h.below
  exact ⟨R, S + z, hR, by omega, h3, .inr ⟨z, by omega, by omega, hz, h4.tail⟩⟩

theorem Loop.top {x y z : Nat} {st : List Nat} (h : Loop (x :: y :: z :: st)) : Loop ((y + x) :: z :: st) := by
  obtain ⟨R, S, g, hR, h1, h2, h3, h4⟩ := h.below
  exact ⟨R, S + z, hR, by omega, h3, .inl ⟨g, h4.mono (by omega)⟩⟩

/-- a short stack is in order when the invariant was checked -/
theorem short_ok {st : List Run} (h : st.length ≤ 3) (hi : checkInvariant st = true) : PushOK (st.map Run.length) := by
  match st with
  | [] => trivial
  | [a] => exact ⟨[], rfl, by simp [Body]⟩
  | [b, a] =>
    simp [checkInvariant] at hi
    exact ⟨[(a.length, none)], rfl, by simp [Body]; omega⟩
  | [c, b, a] =>
    simp [checkInvariant] at hi
    exact ⟨[(b.length, none), (a.length, none)], rfl, by simp [Body]; omega⟩
  | _ :: _ :: _ :: _ :: _ => simp at h

theorem loop_ok {st : List Run} (h : Loop (st.map Run.length)) (hi : checkInvariant st = true) : PushOK (st.map Run.length) := by
  match st with
  | [] => trivial
  | [a] => exact ⟨[], rfl, by simp [Body]⟩
  | [b, a] =>
    simp [checkInvariant] at hi
    exact h.done hi (by simp)
  | c :: b :: a :: st =>
    simp [checkInvariant] at hi
    refine h.done hi.2 ?_
    intro z st' e
    cases e
    omega

variable {α : Type} {cmp : α → α → Int}

theorem collapse_depth (size fuel : Nat) : ∀ (st : List Run) (dst : List α) (st' : List Run) (dst' : List α),
    collapse cmp size fuel st dst = .ok (st', dst') → (st.length ≤ 3 ∨ Loop (st.map Run.length)) →
    (st'.length ≤ 3 ∨ Loop (st'.map Run.length)) := by
  induction fuel with
  | zero => intro st dst st' dst' h; simp [collapse] at h
  | succ fuel ih =>
    intro st dst st' dst' h hl
    match st with
    | [] => simp [collapse] at h; obtain ⟨rfl, _⟩ := h; exact hl
    | [r] => simp [collapse] at h; obtain ⟨rfl, _⟩ := h; exact hl
    | [b, a] =>
      left
      rw [collapse] at h
      split at h
      · split at h
        · cases h; simp
        · cases h
        · cases h
      · cases h; simp
    | c :: b :: a :: st =>
      rw [collapse] at h
      split at h
      · split at h
        · rename_i h1 h2
          split at h
          · apply ih _ _ _ _ h
            rcases hl with hl | hl
            · left; simp only [List.length_cons] at hl ⊢; omega
            · right; exact hl.bury h2
          · cases h
          · cases h
        · split at h
          · apply ih _ _ _ _ h
            rcases hl with hl | hl
            · left; simp only [List.length_cons] at hl ⊢; omega
            · right; exact hl.top
          · cases h
          · cases h
      · split at h
        · split at h
          · apply ih _ _ _ _ h
            rcases hl with hl | hl
            · left; simp only [List.length_cons] at hl ⊢; omega
            · right; exact hl.top
          · cases h
          · cases h
        · cases h; exact hl

/-- runs get no shorter by merging -/
theorem collapse_min (size fuel n : Nat) : ∀ (st : List Run) (dst : List α) (st' : List Run) (dst' : List α),
    collapse cmp size fuel st dst = .ok (st', dst') → (∀ r ∈ st, n ≤ r.length) → (∀ r ∈ st', n ≤ r.length) := by
  induction fuel with
  | zero => intro st dst st' dst' h; simp [collapse] at h
  | succ fuel ih =>
    intro st dst st' dst' h hl
    match st with
    | [] => simp [collapse] at h; obtain ⟨rfl, _⟩ := h; exact hl
    | [r] => simp [collapse] at h; obtain ⟨rfl, _⟩ := h; exact hl
    | [b, a] =>
      rw [collapse] at h
      simp at hl
      split at h
      · split at h
        · cases h; simp; omega
        · cases h
        · cases h
      · cases h; simp; omega
    | c :: b :: a :: st =>
      rw [collapse] at h
      simp only [List.mem_cons, forall_eq_or_imp] at hl
      split at h
      · split at h
        · split at h
          · apply ih _ _ _ _ h
            simp only [List.mem_cons, forall_eq_or_imp]
            exact ⟨hl.1, by omega, hl.2.2.2⟩
          · cases h
          · cases h
        · split at h
          · apply ih _ _ _ _ h
            simp only [List.mem_cons, forall_eq_or_imp]
            exact ⟨by omega, hl.2.2.1, hl.2.2.2⟩
          · cases h
          · cases h
      · split at h
        · split at h
          · apply ih _ _ _ _ h
            simp only [List.mem_cons, forall_eq_or_imp]
            exact ⟨by omega, hl.2.2.1, hl.2.2.2⟩
          · cases h
          · cases h
        · cases h
          simpa using hl

theorem lastval_le (R : List El) : ∀ t, lastval t R ≤ t + (R.map Prod.fst).sum := by
  induction R with
  | nil => intro t; simp [lastval]
  | cons e R ih => intro t; have := ih e.1; simp [lastval]; omega

/-- 128 runs of at least 32 elements at a push: at least `2^47` elements. -/
theorem depth_bound {st : List Nat} (h : PushOK st) (hm : ∀ x ∈ st, 32 ≤ x) (hl : 128 ≤ st.length) : 2 ^ 47 ≤ st.sum := by
  match st with
  | [] => simp at hl
  | x :: st =>
    obtain ⟨R, hR, hb⟩ := h
    have hx : 32 ≤ x := hm x (by simp)
    have hg := (growth R.length R (Nat.le_refl _)).1 x x (32 ^ 3) hb (Nat.pow_le_pow_left hx 3)
    have hlen : R.length = st.length := by rw [hR]; simp
    simp only [List.length_cons] at hl
    have hle := lastval_le R x
    rw [← hR] at hle
    have hs : (x :: st).sum = x + st.sum := by simp
    rw [hs]
    by_contra hcon
    have h1 : lastval x R < 2 ^ 47 := by omega
    have h2 : (lastval x R) ^ 3 < (2 ^ 47) ^ 3 := Nat.pow_lt_pow_left h1 (by omega)
    have h3 : 2 ^ 127 ≤ 2 ^ R.length := Nat.pow_le_pow_right (by omega) (by omega)
    have h4 : 32 ^ 3 * 2 ^ 127 ≤ 32 ^ 3 * 2 ^ R.length := Nat.mul_le_mul_left _ h3
    have e : 32 ^ 3 * 2 ^ 127 = 2 * (2 ^ 47) ^ 3 := by norm_num
    omega

theorem Tiled.sum {st : List Run} {o d : List α} (h : Tiled cmp st o d) : (st.map Run.length).sum = d.length := by
  induction h with
  | nil => rfl
  | cons _ hs _ ih => simp [ih]; omega

/-- the run stack never overflows -/
theorem sortLoop_depth (hc : TotalPreorder cmp) (minrun : Nat) (orig : List α) (hmin : 32 ≤ minrun) (hsz : orig.length ≤ 2 ^ 47) (fuel : Nat) :
    ∀ (k : Nat) (st : List Run) (o d T : List α),
    Tiled cmp st o d → orig = o ++ T → T ≠ [] → 2 * T.length + (if checkInvariant st then 0 else 1) < fuel →
    (∀ r ∈ st, 32 ≤ r.length) → (k + st.length ≤ 3 ∨ (k = 0 ∧ Loop (st.map Run.length))) →
    ∃ out, sortLoop cmp orig.length minrun fuel k ⟨st, d.length, d ++ T⟩ = .ok out ∧ StableSort cmp orig out := by
  induction fuel with
  | zero => intro k st o d T _ _ _ h; omega
  | succ fuel ih =>
    intro k st o d T ht ho hT hf hm hI
    rw [sortLoop]
    have hlen : orig.length = (d ++ T).length := by rw [ho]; simp [ht.length]
    by_cases h1 : k = 0 ∧ (!checkInvariant st) = true
    · rw [if_pos h1]
      obtain ⟨st', d', e1, e2, e3⟩ := collapse_ok hc orig.length (st.length + 1) st o d T ht (by omega)
      have hcd := collapse_depth _ _ _ _ _ _ e1 (by rcases hI with hI | hI; exact .inl (by omega); exact .inr hI.2)
      have hcm := collapse_min _ _ 32 _ _ _ _ e1 hm
      rw [e1]
      simp only
      have hl : d.length = d'.length := by rw [ht.length, e2.length]
      rw [hl]
      apply ih 0 st' o d' T e2 ho hT
      · rw [e3]
        have : checkInvariant st = false := by simpa using h1.2
        rw [this] at hf
        simp at hf ⊢; omega
      · exact hcm
      · rcases hcd with h | h
        · exact .inl (by omega)
        · exact .inr ⟨rfl, h⟩
    · rw [if_neg h1]
      have hpk : (0 < k ∧ k + st.length ≤ 3) ∨ (k = 0 ∧ PushOK (st.map Run.length)) := by
        by_cases hk : k = 0
        · right
          have hi : checkInvariant st = true := by
            cases hci : checkInvariant st with
            | true => rfl
            | false => exact absurd ⟨hk, by simp [hci]⟩ h1
          refine ⟨hk, ?_⟩
          rcases hI with h | h
          · exact short_ok (by omega) hi
          · exact loop_ok h.2 hi
        · rcases hI with h | h
          · exact .inl ⟨by omega, h⟩
          · omega
      have hp := pushRun_ok hc minrun st o d T ht hT
      rw [← hlen] at hp
      rcases hp with ⟨hov, _⟩ | ⟨st', o', d', T', p1, p2, p3, p4, L, p5, p6⟩
      · exfalso
        have hov' : 128 ≤ st.length := hov
        rcases hpk with h | h
        · omega
        · have := depth_bound h.2 (by intro x hx; obtain ⟨r, hr, rfl⟩ := List.mem_map.mp hx; exact hm r hr) (by simpa using hov')
          rw [ht.sum] at this
          have hTl : 0 < T.length := List.length_pos_iff.mpr hT
          simp at hlen
          omega
      · rw [p1]
        simp only
        by_cases hfin : d'.length = orig.length
        · rw [if_pos hfin]
          have hT' : T' = [] := by
            apply List.length_eq_zero_iff.mp
            have := congrArg List.length p3
            rw [← ho] at this
            simp [← p2.length] at this; omega
          subst hT'
          obtain ⟨out, f1, f2⟩ := finishUp_ok hc _ st' o' d' rfl p2
          refine ⟨out, by simpa using f1, ?_⟩
          rw [ho, p3]; simpa using f2
        · rw [if_neg hfin]
          have hT' : T' ≠ [] := by
            intro h
            subst h
            have := congrArg List.length p3
            rw [← ho] at this
            simp [← p2.length] at this; omega
          apply ih (k - 1) st' o' d' T' p2 (by rw [ho, p3]) hT'
          · split <;> split at hf <;> omega
          · subst p5
            simp only [List.mem_cons, forall_eq_or_imp]
            refine ⟨?_, hm⟩
            rcases p6 with h | h
            · show 32 ≤ _; omega
            · exact absurd h hT'
          · subst p5
            rcases hpk with h | h
            · left; simp; omega
            · right
              exact ⟨by omega, h.2.push _⟩

end Verif.Sort
