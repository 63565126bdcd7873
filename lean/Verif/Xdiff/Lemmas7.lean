import Verif.Xdiff.Lemmas6
/-! # Moving groups of changes never fails and keeps the lines without mark -/
namespace Verif.Xdiff
open Spec

/-- the runs of both files, at the groups -/
structure Z where
  L : List Nat
  a : Nat
  R : List Nat
  Lo : List Nat
  o : Nat
  Ro : List Nat

/-- the state of the program -/
def Z.co (z : Z) : Co := ⟨enc z.L z.a z.R, grp z.L z.a, grp z.Lo z.o⟩

/-- runs that are not empty -/
def nz (l : List Nat) : Nat := (l.filter (· ≠ 0)).length

theorem nz_zero (l : List Nat) : nz (0 :: l) = nz l := by simp [nz]

theorem nz_pos (l : List Nat) {b : Nat} (h : b ≠ 0) : nz (b :: l) = nz l + 1 := by simp [nz, h]

theorem nz_encL : ∀ L : List Nat, nz L + L.length ≤ (encL L).length
  | [] => Nat.le_refl _
  | b :: L => by
    have := nz_encL L
    rw [encL_cons_length, List.length_cons]
    by_cases h : b = 0
    · subst h; rw [nz_zero]; omega
    · rw [nz_pos _ h]; omega

theorem nz_encR : ∀ R : List Nat, nz R + R.length ≤ (encR R).length
  | [] => Nat.le_refl _
  | b :: R => by
    have := nz_encR R
    rw [encR_cons_length, List.length_cons]
    by_cases h : b = 0
    · subst h; rw [nz_zero]; omega
    · rw [nz_pos _ h]; omega

/-- the groups belong together, and what is kept -/
structure Good (ha : List Nat) (ro : List Bool) (k : List Nat) (z : Z) : Prop where
  len : (enc z.L z.a z.R).length = ha.length
  keep : kept ha (enc z.L z.a z.R) = k
  other : enc z.Lo z.o z.Ro = ro
  left : z.L.length = z.Lo.length
  right : z.R.length = z.Ro.length

/-- how the runs change when a group is moved -/
structure Chg (z z' : Z) : Prop where
  grow : z.a ≤ z'.a
  same : z'.a = z.a → nz z'.L = nz z.L ∧ nz z'.R = nz z.R
  less : z.a < z'.a → nz z'.L + nz z'.R < nz z.L + nz z.R

theorem Chg.refl (z : Z) : Chg z z := ⟨Nat.le_refl _, fun _ => ⟨rfl, rfl⟩, fun h => absurd h (Nat.lt_irrefl _)⟩

theorem Chg.trans {x y z : Z} (h : Chg x y) (g : Chg y z) : Chg x z := by
  have h1 := h.grow; have g1 := g.grow
  refine ⟨by omega, ?_, ?_⟩
  · intro e
    have e1 := h.same (by omega)
    have e2 := g.same (by omega)
    exact ⟨e2.1.trans e1.1, e2.2.trans e1.2⟩
  · intro e
    by_cases c : y.a = x.a
    · have e1 := h.same c
      have e2 := g.less (by omega)
      omega
    · have e1 := h.less (by omega)
      by_cases c2 : z.a = y.a
      · have := g.same c2; omega
      · have := g.less (by omega); omega

/-- a group moves down -/
def Z.down (ha : List Nat) (z : Z) : Option Z :=
  match z.R, z.Ro with
  | b :: R, o' :: Ro => if ha.getD (encL z.L).length 0 = ha.getD ((encL z.L).length + z.a) 0 then some ⟨0 :: z.L, z.a + b, R, z.o :: z.Lo, o', Ro⟩ else none
  | _, _ => none

/-- a group moves up -/
def Z.up (ha : List Nat) (z : Z) : Option Z :=
  match z.L, z.Lo with
  | b :: L, o' :: Lo => if ha.getD ((encL L).length + b) 0 = ha.getD ((encL L).length + b + z.a) 0 then some ⟨L, b + z.a, 0 :: z.R, Lo, o', z.o :: z.Ro⟩ else none
  | _, _ => none

variable {ha : List Nat} {ro : List Bool} {k : List Nat}

theorem stepDown_eq {z : Z} (g : Good ha ro k z) (h0 : 0 < z.a) : stepDown ha ro z.co = (z.down ha).map fun z' => .ok z'.co := by
  obtain ⟨L, a, R, Lo, o, Ro⟩ := z
  obtain ⟨g1, g2, g3, g4, g5⟩ := g
  dsimp only at *
  subst g3
  cases R with
  | nil =>
    unfold stepDown
    rw [show slideDown ha (Z.co ⟨L, a, [], Lo, o, Ro⟩).r (Z.co ⟨L, a, [], Lo, o, Ro⟩).g = none from slideDown_nil ha L a]
    rfl
  | cons b R =>
    cases Ro with
    | nil => simp at g5
    | cons o' Ro =>
      unfold stepDown
      rw [show slideDown ha (Z.co ⟨L, a, b :: R, Lo, o, o' :: Ro⟩).r (Z.co ⟨L, a, b :: R, Lo, o, o' :: Ro⟩).g = _ from slideDown_cons ha L h0 b R]
      rw [show groupNext (enc Lo o (o' :: Ro)) (Z.co ⟨L, a, b :: R, Lo, o, o' :: Ro⟩).go = _ from groupNext_cons Lo o o' Ro]
      unfold Z.down
      dsimp only
      by_cases hc : ha.getD (encL L).length 0 = ha.getD ((encL L).length + a) 0
      · rw [if_pos hc, if_pos hc]; rfl
      · rw [if_neg hc, if_neg hc]; rfl

theorem stepUp_eq {z : Z} (g : Good ha ro k z) (h0 : 0 < z.a) : stepUp ha ro z.co = (z.up ha).map fun z' => .ok z'.co := by
  obtain ⟨L, a, R, Lo, o, Ro⟩ := z
  obtain ⟨g1, g2, g3, g4, g5⟩ := g
  dsimp only at *
  subst g3
  cases L with
  | nil =>
    unfold stepUp
    rw [show slideUp ha (Z.co ⟨[], a, R, Lo, o, Ro⟩).r (Z.co ⟨[], a, R, Lo, o, Ro⟩).g = none from slideUp_nil ha a R]
    rfl
  | cons b L =>
    cases Lo with
    | nil => simp at g4
    | cons o' Lo =>
      unfold stepUp
      rw [show slideUp ha (Z.co ⟨b :: L, a, R, o' :: Lo, o, Ro⟩).r (Z.co ⟨b :: L, a, R, o' :: Lo, o, Ro⟩).g = _ from slideUp_cons ha L h0 b R]
      rw [show groupPrev (enc (o' :: Lo) o Ro) (Z.co ⟨b :: L, a, R, o' :: Lo, o, Ro⟩).go = _ from groupPrev_cons Lo o o' Ro]
      unfold Z.up
      dsimp only
      by_cases hc : ha.getD ((encL L).length + b) 0 = ha.getD ((encL L).length + b + a) 0
      · rw [if_pos hc, if_pos hc]; rfl
      · rw [if_neg hc, if_neg hc]; rfl

theorem down_good {z z' : Z} (g : Good ha ro k z) (h0 : 0 < z.a) (h : z.down ha = some z') :
    Good ha ro k z' ∧ Chg z z' ∧ z'.R.length + 1 = z.R.length ∧ z'.co.g.stop = z.co.g.stop + 1 + (z'.a - z.a) ∧ (z'.a = z.a → z'.up ha = some z) := by
  obtain ⟨L, a, R, Lo, o, Ro⟩ := z
  obtain ⟨g1, g2, g3, g4, g5⟩ := g
  dsimp only at *
  cases R with
  | nil => simp [Z.down] at h
  | cons b R =>
    cases Ro with
    | nil => simp at g5
    | cons o' Ro =>
      unfold Z.down at h
      dsimp only at h
      split at h
      · rename_i hc
        injection h with h
        subst h
        have hk := kept_down (b := b) (R := R) g1 hc
        refine ⟨⟨?_, hk.trans g2, by rw [← g3]; exact enc_next _ _ _ _, by simpa using g4, by simpa using g5⟩, ⟨by dsimp only; omega, ?_, ?_⟩, rfl, ?_, ?_⟩
        · dsimp only
          rw [← g1, enc_length, enc_length, encL_cons_length, encR_cons_length]
          omega
        · dsimp only
          intro e
          have : b = 0 := by omega
          subst this
          exact ⟨nz_zero _, (nz_zero _).symm⟩
        · dsimp only
          intro e
          rw [nz_zero, nz_pos R (b := b) (by omega)]
          omega
        · dsimp only [Z.co, grp]
          rw [encL_cons_length]; omega
        · dsimp only
          intro e
          have : b = 0 := by omega
          subst this
          simp only [Z.up, Nat.add_zero, Nat.zero_add]
          rw [if_pos hc]
      · cases h

theorem up_good {z z' : Z} (g : Good ha ro k z) (h0 : 0 < z.a) (h : z.up ha = some z') :
    Good ha ro k z' ∧ Chg z z' ∧ z'.L.length + 1 = z.L.length ∧ z'.co.g.stop + 1 = z.co.g.stop := by
  obtain ⟨L, a, R, Lo, o, Ro⟩ := z
  obtain ⟨g1, g2, g3, g4, g5⟩ := g
  dsimp only at *
  cases L with
  | nil => simp [Z.up] at h
  | cons b L =>
    cases Lo with
    | nil => simp at g4
    | cons o' Lo =>
      unfold Z.up at h
      dsimp only at h
      split at h
      · rename_i hc
        injection h with h
        subst h
        have hk := kept_up (b := b) (R := R) g1 hc
        refine ⟨⟨?_, hk.trans g2, by rw [← g3]; exact (enc_next _ _ _ _).symm, by simpa using g4, by simpa using g5⟩, ⟨by dsimp only; omega, ?_, ?_⟩, rfl, ?_⟩
        · dsimp only
          rw [← g1, enc_length, enc_length, encL_cons_length, encR_cons_length]
          simp only [Nat.add_zero]
          omega
        · dsimp only
          intro e
          have : b = 0 := by omega
          subst this
          exact ⟨(nz_zero _).symm, nz_zero _⟩
        · dsimp only
          intro e
          rw [nz_zero, nz_pos L (b := b) (by omega)]
          omega
        · dsimp only [Z.co, grp]
          rw [encL_cons_length]; omega
      · cases h

theorem upLoop_eq : ∀ (n : Nat) (z : Z), Good ha ro k z → 0 < z.a → z.L.length < n → ∃ z', upLoop ha ro n z.co = .ok z'.co ∧ Good ha ro k z' ∧ Chg z z' := by
  intro n
  induction n with
  | zero => intro z _ _ h; omega
  | succ n ih =>
    intro z g h0 hn
    rw [upLoop, stepUp_eq g h0]
    cases hu : z.up ha with
    | none => exact ⟨z, rfl, g, Chg.refl z⟩
    | some z' =>
      obtain ⟨g', c', l', _⟩ := up_good g h0 hu
      obtain ⟨z'', e, g'', c''⟩ := ih z' g' (by have := c'.grow; omega) (by omega)
      exact ⟨z'', e, g'', c'.trans c''⟩

/-- going down without growing, which can be undone -/
inductive Rev (ha : List Nat) (ro : List Bool) (k : List Nat) : Z → Z → Prop
  | refl {z : Z} : Good ha ro k z → 0 < z.a → Rev ha ro k z z
  | step {z y x : Z} : Rev ha ro k z y → Good ha ro k x → 0 < x.a → x.up ha = some y → x.a = y.a → Chg y x → x.co.g.stop = y.co.g.stop + 1 → Rev ha ro k z x

theorem Rev.good {z x : Z} (h : Rev ha ro k z x) : Good ha ro k x := by cases h <;> assumption
theorem Rev.pos {z x : Z} (h : Rev ha ro k z x) : 0 < x.a := by cases h <;> assumption
theorem Rev.size {z x : Z} (h : Rev ha ro k z x) : x.a = z.a := by
  induction h with
  | refl => rfl
  | step _ _ _ _ e _ _ ih => omega
theorem Rev.chg {z x : Z} (h : Rev ha ro k z x) : Chg z x := by
  induction h with
  | refl => exact Chg.refl _
  | step _ _ _ _ _ c _ ih => exact ih.trans c
theorem Rev.stop {z x : Z} (h : Rev ha ro k z x) : z.co.g.stop ≤ x.co.g.stop := by
  induction h with
  | refl => exact Nat.le_refl _
  | step _ _ _ _ _ _ e ih => omega

/-- what is known about the last matching end -/
def Seen (ha : List Nat) (ro : List Bool) (k : List Nat) (z : Z) (m : Option Nat) : Prop := m ≠ none → ∃ y, Rev ha ro k y z ∧ y.co.go.stop > y.co.go.start

theorem downLoop_eq : ∀ (n : Nat) (m : Option Nat) (z : Z), Good ha ro k z → 0 < z.a → z.R.length < n →
    ∃ m' z', downLoop ha ro n m z.co = .ok (m', z'.co) ∧ Good ha ro k z' ∧ Chg z z' ∧
      (z'.a = z.a → ∀ s, Rev ha ro k s z → Seen ha ro k z m → Rev ha ro k s z' ∧ Seen ha ro k z' m') := by
  intro n
  induction n with
  | zero => intro m z _ _ h; omega
  | succ n ih =>
    intro m z g h0 hn
    rw [downLoop, stepDown_eq g h0]
    cases hd : z.down ha with
    | none => exact ⟨m, z, rfl, g, Chg.refl z, fun _ s hs hm => ⟨hs, hm⟩⟩
    | some z' =>
      obtain ⟨g', c', l', st', u'⟩ := down_good g h0 hd
      have hp : 0 < z'.a := by have := c'.grow; omega
      obtain ⟨m'', z'', e, g'', c'', r''⟩ := ih (if z'.co.go.stop > z'.co.go.start then some z'.co.g.stop else m) z' g' hp (by omega)
      refine ⟨m'', z'', e, g'', c'.trans c'', ?_⟩
      intro ha' s hs hm
      have i1 := c'.grow; have i2 := c''.grow
      have hz : z'.a = z.a := by omega
      have hst : ∀ y, Rev ha ro k y z → Rev ha ro k y z' := fun y hy => Rev.step hy g' hp (u' hz) hz c' (by omega)
      refine r'' (by omega) s (hst s hs) ?_
      intro hne
      by_cases hg : z'.co.go.stop > z'.co.go.start
      · exact ⟨z', Rev.refl g' hp, hg⟩
      · rw [if_neg hg] at hne
        obtain ⟨y, hy, hyg⟩ := hm hne
        exact ⟨y, hst y hy, hyg⟩

theorem co_length (z : Z) : z.co.r.length = (encL z.L).length + z.a + (encR z.R).length := enc_length _ _ _

theorem shiftLoop_eq : ∀ (n : Nat) (z : Z), Good ha ro k z → 0 < z.a → ha.length < n + z.a →
    ∃ m z' s, shiftLoop ha ro n z.co = .ok m ∧ m.co = z'.co ∧ m.size = z'.a ∧ m.earliest = s.co.g.stop ∧ Chg z z' ∧ Rev ha ro k s z' ∧ Seen ha ro k z' m.matching := by
  intro n
  induction n with
  | zero =>
    intro z g _ h
    have := g.len
    rw [enc_length] at this
    omega
  | succ n ih =>
    intro z g h0 hn
    rw [shiftLoop]
    dsimp only
    have hsz : z.co.g.stop - z.co.g.start = z.a := by dsimp only [Z.co, grp]; omega
    have hst : z.co.g.stop = (encL z.L).length + z.a := rfl
    obtain ⟨y, ey, gy, cy⟩ := upLoop_eq (z.co.g.stop + 1) z g h0 (by have := length_le_encL z.L; omega)
    rw [ey, Res.bind_ok, hsz]
    have hy0 : 0 < y.a := by have := cy.grow; omega
    obtain ⟨m, x, ex, gx, cx, rx⟩ := downLoop_eq (y.co.r.length + 1) (if y.co.go.stop > y.co.go.start then some y.co.g.stop else none) y gy hy0
      (by rw [co_length]; have := length_le_encR y.R; omega)
    rw [ex, Res.bind_ok]
    have hsx : x.co.g.stop - x.co.g.start = x.a := by dsimp only [Z.co, grp]; omega
    dsimp only
    rw [hsx]
    have c1 := cy.grow; have c2 := cx.grow
    by_cases hc : z.a ≠ x.a
    · rw [if_pos hc]
      obtain ⟨m', z', s, e, h1, h2, h3, h4, h5⟩ := ih x gx (by omega) (by omega)
      exact ⟨m', z', s, e, h1, h2, h3, (cy.trans cx).trans h4, h5⟩
    · rw [if_neg hc]
      obtain ⟨r1, r2⟩ := rx (by omega) y (Rev.refl gy hy0) (by
        intro hne
        by_cases hg : y.co.go.stop > y.co.go.start
        · exact ⟨y, Rev.refl gy hy0, hg⟩
        · rw [if_neg hg] at hne; exact absurd rfl hne)
      exact ⟨_, x, y, rfl, rfl, by dsimp only; omega, rfl, cy.trans cx, r1, r2⟩

theorem matchLoop_eq {y z : Z} (h : Rev ha ro k y z) (hg : y.co.go.stop > y.co.go.start) : ∀ n, z.co.g.stop < n + y.co.g.stop →
    ∃ z', matchLoop ha ro n z.co = .ok z'.co ∧ Good ha ro k z' ∧ z'.a = z.a ∧ nz z'.L = nz z.L ∧ nz z'.R = nz z.R := by
  induction h with
  | refl g h0 =>
    intro n hn
    cases n with
    | zero => omega
    | succ n =>
      rw [matchLoop, if_neg (by omega)]
      exact ⟨_, rfl, g, rfl, rfl, rfl⟩
  | @step y' x hr g h0 hu he hc hs ih =>
    intro n hn
    have hst := hr.stop
    cases n with
    | zero => omega
    | succ n =>
      rw [matchLoop]
      by_cases hq : (Z.co x).go.stop = (Z.co x).go.start
      · rw [if_pos hq, stepUp_eq g h0, hu]
        obtain ⟨z', e, g', a', l', r'⟩ := ih n (by omega)
        have hsame := hc.same he
        exact ⟨z', e, g', by omega, by omega, by omega⟩
      · rw [if_neg hq]
        exact ⟨_, rfl, g, rfl, rfl, rfl⟩

theorem bestLoop_eq {best : Nat} {y z : Z} (h : Rev ha ro k y z) (hb : y.co.g.stop ≤ best) : ∀ n, z.co.g.stop < n + y.co.g.stop →
    ∃ z', bestLoop ha ro best n z.co = .ok z'.co ∧ Good ha ro k z' ∧ z'.a = z.a ∧ nz z'.L = nz z.L ∧ nz z'.R = nz z.R := by
  induction h with
  | refl g h0 =>
    intro n hn
    cases n with
    | zero => omega
    | succ n =>
      rw [bestLoop, if_neg (by omega)]
      exact ⟨_, rfl, g, rfl, rfl, rfl⟩
  | @step y' x hr g h0 hu he hc hs ih =>
    intro n hn
    have hst := hr.stop
    cases n with
    | zero => omega
    | succ n =>
      rw [bestLoop]
      by_cases hq : (Z.co x).g.stop > best
      · rw [if_pos hq, stepUp_eq g h0, hu]
        obtain ⟨z', e, g', a', l', r'⟩ := ih n (by omega)
        have hsame := hc.same he
        exact ⟨z', e, g', by omega, by omega, by omega⟩
      · rw [if_neg hq]
        exact ⟨_, rfl, g, rfl, rfl, rfl⟩

theorem bestShift_eq (lines : List Bytes) (size : Nat) : ∀ (n shift : Nat) (best : Option (Nat × (Int × Int))) (lo : Nat), size ≤ shift → shift + n ≤ lines.length + 1 → lo ≤ shift →
    (∀ b, best = some b → lo ≤ b.1) → ∃ b, bestShift lines size n shift best = .ok b ∧ ∀ x, b = some x → lo ≤ x.1 := by
  intro n
  induction n with
  | zero => intro shift best lo _ _ _ hb; exact ⟨best, rfl, hb⟩
  | succ n ih =>
    intro shift best lo h1 h2 h3 hb
    rw [bestShift, if_neg (by omega)]
    dsimp only
    apply ih (shift + 1) _ lo (by omega) (by omega) (by omega)
    intro x hx
    cases best with
    | none => injection hx with hx; rw [← hx]; exact h3
    | some b =>
      dsimp only at hx
      split at hx
      · injection hx with hx; rw [← hx]; exact h3
      · injection hx with hx; rw [← hx]; exact hb b rfl

/-- a group is moved: either it grew, and there are fewer runs, or the runs after it are as many as before -/
theorem compactGroup_eq (indent : Bool) {lines : List Bytes} {z : Z} (g : Good ha ro k z) (h0 : 0 < z.a) (hl : lines.length = ha.length) :
    ∃ z', compactGroup indent lines ha ro z.co = .ok z'.co ∧ Good ha ro k z' ∧ 0 < z'.a ∧ Chg z z' := by
  unfold compactGroup
  have hrl : z.co.r.length = ha.length := g.len
  obtain ⟨m, z', s, e, e1, e2, e3, c, r, sn⟩ := shiftLoop_eq (z.co.r.length + 1) z g h0 (by omega)
  have gz := r.good
  have hp := r.pos
  have hsz := r.size
  have hss := r.stop
  have hlen : z'.co.g.stop ≤ ha.length := by
    have := gz.len
    rw [enc_length] at this
    show (encL z'.L).length + z'.a ≤ _
    omega
  have hse : z'.a ≤ s.co.g.stop := by show _ ≤ (encL s.L).length + s.a; omega
  rw [e, Res.bind_ok, e1, e2, e3]
  have fin : ∀ x : Z, x.a = z'.a → nz x.L = nz z'.L → nz x.R = nz z'.R → 0 < x.a ∧ Chg z x := by
    intro x h1 h2 h3
    refine ⟨by omega, c.trans ⟨by omega, fun _ => ⟨h2, h3⟩, fun h => by omega⟩⟩
  by_cases c1 : z'.co.g.stop = s.co.g.stop
  · rw [if_pos c1]; exact ⟨z', rfl, gz, hp, c⟩
  · rw [if_neg c1]
    by_cases c2 : m.matching ≠ none
    · rw [if_pos c2]
      obtain ⟨y, hy, hyg⟩ := sn c2
      obtain ⟨x, ex, gx, ax, lx, rx⟩ := matchLoop_eq hy hyg (z'.co.g.stop + 1) (by omega)
      obtain ⟨f1, f2⟩ := fin x ax lx rx
      exact ⟨x, ex, gx, f1, f2⟩
    · rw [if_neg c2]
      by_cases c3 : indent = true
      · rw [if_pos c3]
        have hf : s.co.g.stop ≤ firstShift s.co.g.stop z'.co.g.stop z'.a ∧ firstShift s.co.g.stop z'.co.g.stop z'.a ≤ z'.co.g.stop := by
          unfold firstShift
          constructor
          · exact Nat.le_trans (Nat.le_max_left _ _) (Nat.le_max_left _ _)
          · apply Nat.max_le.mpr
            refine ⟨Nat.max_le.mpr ⟨hss, ?_⟩, ?_⟩ <;> omega
        dsimp only
        obtain ⟨b, eb, hb⟩ := bestShift_eq lines z'.a (z'.co.g.stop + 1 - firstShift s.co.g.stop z'.co.g.stop z'.a) (firstShift s.co.g.stop z'.co.g.stop z'.a) none s.co.g.stop
          (by omega) (by omega) hf.1 (by intro b h; cases h)
        rw [eb, Res.bind_ok]
        cases b with
        | none => exact ⟨z', rfl, gz, hp, c⟩
        | some b =>
          obtain ⟨x, ex, gx, ax, lx, rx⟩ := bestLoop_eq r (hb b rfl) (z'.co.g.stop + 1) (by omega)
          obtain ⟨f1, f2⟩ := fin x ax lx rx
          exact ⟨x, ex, gx, f1, f2⟩
      · rw [if_neg c3]; exact ⟨z', rfl, gz, hp, c⟩

/-- what gets smaller in every round -/
def mu (n : Nat) (z : Z) : Nat := (nz z.L + nz (z.a :: z.R)) * ((n + 1) * (n + 1)) + nz (z.a :: z.R) * (n + 1) + z.R.length

theorem mu_lt {n : Nat} {z z' : Z} (hs : nz (z'.a :: z'.R) ≤ n) (hr : z'.R.length ≤ n)
    (h : nz z'.L + nz (z'.a :: z'.R) < nz z.L + nz (z.a :: z.R) ∨ (nz z'.L + nz (z'.a :: z'.R) = nz z.L + nz (z.a :: z.R) ∧
      (nz (z'.a :: z'.R) < nz (z.a :: z.R) ∨ nz (z'.a :: z'.R) = nz (z.a :: z.R) ∧ z'.R.length < z.R.length))) : mu n z' < mu n z := by
  unfold mu
  generalize nz z'.L + nz (z'.a :: z'.R) = t' at *
  generalize nz z.L + nz (z.a :: z.R) = t at *
  generalize nz (z'.a :: z'.R) = s' at *
  generalize nz (z.a :: z.R) = s at *
  generalize z'.R.length = p' at *
  generalize z.R.length = p at *
  have q : s' * (n + 1) + p' < (n + 1) * (n + 1) := by
    have : s' * (n + 1) ≤ n * (n + 1) := Nat.mul_le_mul_right _ hs
    rw [Nat.add_mul n 1 (n + 1)]
    omega
  rcases h with h | ⟨h, h' | ⟨h2, h3⟩⟩
  · have : (t' + 1) * ((n + 1) * (n + 1)) ≤ t * ((n + 1) * (n + 1)) := Nat.mul_le_mul_right _ h
    rw [Nat.add_mul] at this
    omega
  · have : (s' + 1) * (n + 1) ≤ s * (n + 1) := Nat.mul_le_mul_right _ h'
    rw [Nat.add_mul] at this
    rw [h]
    omega
  · rw [h, h2]; omega

theorem good_bound {z : Z} (g : Good ha ro k z) : nz (z.a :: z.R) ≤ ha.length ∧ z.R.length ≤ ha.length ∧ nz z.L + nz (z.a :: z.R) ≤ ha.length := by
  have := g.len
  rw [enc_length] at this
  have h1 := nz_encL z.L
  have h2 := nz_encR z.R
  by_cases h : z.a = 0
  · rw [h, nz_zero]; omega
  · rw [nz_pos _ h]; omega

theorem compactLoop_eq (indent : Bool) {lines : List Bytes} (hl : lines.length = ha.length) : ∀ (n : Nat) (z : Z), Good ha ro k z → mu ha.length z < n →
    ∃ r', compactLoop indent lines ha ro n z.co = .ok r' ∧ r'.length = ha.length ∧ kept ha r' = k := by
  intro n
  induction n with
  | zero => intro z _ h; omega
  | succ n ih =>
    intro z g hn
    have hz : ∃ z', (if z.co.g.stop = z.co.g.start then (.ok z.co : Res Co) else compactGroup indent lines ha ro z.co) = .ok z'.co ∧ Good ha ro k z' ∧
        (nz z'.L + nz (z'.a :: z'.R) < nz z.L + nz (z.a :: z.R) ∨ nz z'.L + nz (z'.a :: z'.R) = nz z.L + nz (z.a :: z.R) ∧ nz (z'.a :: z'.R) = nz (z.a :: z.R) ∧
          (z'.a ≠ 0 ∨ z'.R = z.R)) := by
      have hs : z.co.g.stop = z.co.g.start + z.a := rfl
      by_cases h0 : z.a = 0
      · rw [if_pos (by omega)]
        exact ⟨z, rfl, g, Or.inr ⟨rfl, rfl, Or.inr rfl⟩⟩
      · rw [if_neg (by omega)]
        obtain ⟨z', e, g', p, c⟩ := compactGroup_eq indent g (by omega) hl
        refine ⟨z', e, g', ?_⟩
        rw [nz_pos _ h0, nz_pos _ (show z'.a ≠ 0 by omega)]
        have := c.grow
        by_cases hc : z'.a = z.a
        · have := c.same hc
          right
          exact ⟨by omega, by omega, Or.inl (by omega)⟩
        · have := c.less (by omega)
          left
          omega
    obtain ⟨z', e, g', hm⟩ := hz
    rw [compactLoop, e, Res.bind_ok]
    clear e
    obtain ⟨L, a, R, Lo, o, Ro⟩ := z'
    have g3 := g'.other
    have g5 := g'.right
    dsimp only at g3 g5 hm
    cases R with
    | nil =>
      have hR : Ro = [] := List.length_eq_zero_iff.mp (by simpa using g5.symm)
      subst hR
      rw [show groupNext (Z.co ⟨L, a, [], Lo, o, []⟩).r (Z.co ⟨L, a, [], Lo, o, []⟩).g = none from groupNext_nil L a, ← g3,
        show groupNext (enc Lo o []) (Z.co ⟨L, a, [], Lo, o, []⟩).go = none from groupNext_nil Lo o]
      exact ⟨_, rfl, g'.len, g'.keep⟩
    | cons b R =>
      cases Ro with
      | nil => simp at g5
      | cons o' Ro =>
        have e1 : groupNext (Z.co ⟨L, a, b :: R, Lo, o, o' :: Ro⟩).r (Z.co ⟨L, a, b :: R, Lo, o, o' :: Ro⟩).g = some (grp (a :: L) b) := groupNext_cons L a b R
        have e2 : groupNext ro (Z.co ⟨L, a, b :: R, Lo, o, o' :: Ro⟩).go = some (grp (o :: Lo) o') := by rw [← g3]; exact groupNext_cons Lo o o' Ro
        rw [e1, e2]
        dsimp only
        have gn : Good ha ro k ⟨a :: L, b, R, o :: Lo, o', Ro⟩ := by
          obtain ⟨x1, x2, x3, x4, x5⟩ := g'
          dsimp only at x1 x2 x3 x4 x5
          exact ⟨by dsimp only; rw [enc_next]; exact x1, by dsimp only; rw [enc_next]; exact x2, by dsimp only; rw [enc_next]; exact x3, by simpa using x4, by simpa using x5⟩
        have hco : (⟨(Z.co ⟨L, a, b :: R, Lo, o, o' :: Ro⟩).r, grp (a :: L) b, grp (o :: Lo) o'⟩ : Co) = Z.co ⟨a :: L, b, R, o :: Lo, o', Ro⟩ := by
          unfold Z.co
          dsimp only
          rw [enc_next]
        rw [hco]
        apply ih _ gn
        obtain ⟨b1, b2, b3⟩ := good_bound gn
        have : mu ha.length ⟨a :: L, b, R, o :: Lo, o', Ro⟩ < mu ha.length z := by
          apply mu_lt b1 b2
          dsimp only
          have hsum : nz (a :: L) + nz (b :: R) = nz L + nz (a :: b :: R) := by
            by_cases h : a = 0
            · subst h; rw [nz_zero, nz_zero]
            · rw [nz_pos _ h, nz_pos _ h]; omega
          rcases hm with hm | ⟨hm, hs, hx⟩
          · left; omega
          · right
            refine ⟨by omega, ?_⟩
            by_cases h : a = 0
            · subst h
              rw [nz_zero] at hs
              rcases hx with hx | hx
              · exact absurd rfl hx
              · right; exact ⟨hs, by rw [← hx, List.length_cons]; omega⟩
            · rw [nz_pos _ h] at hs
              left; omega
        omega

theorem kept_length_eq {α : Type} : ∀ (l : List α) (r : List Bool), l.length = r.length → (kept l r).length = (r.filter (· = false)).length := by
  intro l
  induction l with
  | nil =>
    intro r h
    have : r = [] := List.length_eq_zero_iff.mp (by simpa using h.symm)
    subst this; rfl
  | cons a l ih =>
    intro r h
    cases r with
    | nil => simp at h
    | cons m r =>
      have h' := ih r (by simpa using h)
      cases m with
      | true => rw [kept, if_pos rfl, List.filter_cons, if_neg (by simp)]; exact h'
      | false => rw [kept, if_neg (by simp), List.filter_cons, if_pos (by simp), List.length_cons, List.length_cons, h']

theorem runs_length : ∀ (R : List Nat), ((encR R).filter (· = false)).length = R.length := by
  intro R
  induction R with
  | nil => rfl
  | cons b R ih =>
    have : (List.replicate b true).filter (· = false) = [] := by simp [List.filter_eq_nil_iff, List.mem_replicate]
    rw [encR, List.filter_cons, if_pos (by simp), List.filter_append, this, List.nil_append, List.length_cons, ih, List.length_cons]

theorem enc_runs (a : Nat) (R : List Nat) : ((enc [] a R).filter (· = false)).length = R.length := by
  have : (List.replicate a true).filter (· = false) = [] := by simp [List.filter_eq_nil_iff, List.mem_replicate]
  unfold enc
  rw [encL, List.nil_append, List.filter_append, this, List.nil_append, runs_length]

theorem mu_bound {n : Nat} {z : Z} (h3 : nz z.L + nz (z.a :: z.R) ≤ n) (h1 : nz (z.a :: z.R) ≤ n) (h2 : z.R.length ≤ n) : mu n z < (n + 2) * (n + 2) * (n + 2) := by
  unfold mu
  generalize nz z.L + nz (z.a :: z.R) = t at *
  generalize nz (z.a :: z.R) = s at *
  generalize z.R.length = p at *
  have e1 : t * ((n + 1) * (n + 1)) ≤ n * ((n + 1) * (n + 1)) := Nat.mul_le_mul_right _ h3
  have e2 : s * (n + 1) ≤ n * (n + 1) := Nat.mul_le_mul_right _ h1
  have e3 : (n + 1) * ((n + 1) * (n + 1)) ≤ (n + 2) * (n + 2) * (n + 2) := by
    rw [← Nat.mul_assoc]
    exact Nat.mul_le_mul (Nat.mul_le_mul (by omega) (by omega)) (by omega)
  have e4 : (n + 1) * ((n + 1) * (n + 1)) = n * ((n + 1) * (n + 1)) + (n + 1) * (n + 1) := by rw [Nat.add_mul n 1 ((n + 1) * (n + 1)), Nat.one_mul]
  have e5 : (n + 1) * (n + 1) = n * (n + 1) + (n + 1) := by rw [Nat.add_mul n 1 (n + 1), Nat.one_mul]
  omega

/-- moving the groups of a file: it ends without an error, and the lines without mark are the same -/
theorem changeCompact_eq (indent : Bool) {lines : List Bytes} {ha : List Nat} {r ro : List Bool} (hl : lines.length = ha.length) (hr : ha.length = r.length) {α : Type} {hb : List α}
    (ho : hb.length = ro.length) (hk : (kept ha r).length = (kept hb ro).length) :
    ∃ r', changeCompact indent lines ha r ro = .ok r' ∧ r'.length = ha.length ∧ kept ha r' = kept ha r := by
  obtain ⟨a, R, rfl⟩ := exists_enc r
  obtain ⟨o, Ro, rfl⟩ := exists_enc ro
  rw [kept_length_eq _ _ hr, kept_length_eq _ _ ho, enc_runs, enc_runs] at hk
  unfold changeCompact
  rw [groupInit_eq, groupInit_eq]
  have g : Good ha (enc [] o Ro) (kept ha (enc [] a R)) ⟨[], a, R, [], o, Ro⟩ := ⟨hr.symm, rfl, rfl, rfl, hk⟩
  obtain ⟨r', e, e1, e2⟩ := compactLoop_eq indent hl (((enc [] a R).length + 2) * ((enc [] a R).length + 2) * ((enc [] a R).length + 2)) _ g (by
    obtain ⟨b1, b2, b3⟩ := good_bound g
    rw [← hr]
    exact mu_bound b3 b1 b2)
  exact ⟨r', e, e1, e2⟩

end Verif.Xdiff
