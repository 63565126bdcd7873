import Verif.Xdiff.Lemmas5
/-! # Moving groups of changes: the runs of marks -/
namespace Verif.Xdiff
open Spec

theorem rep_add (a b : Nat) : List.replicate (a + b) true = List.replicate a true ++ List.replicate b true := List.replicate_append_replicate.symm

/-- runs of marks, each after a line without mark -/
def encR : List Nat → List Bool
  | [] => []
  | b :: R => false :: (List.replicate b true ++ encR R)

/-- runs of marks, each before a line without mark; the last first -/
def encL : List Nat → List Bool
  | [] => []
  | b :: L => encL L ++ (List.replicate b true ++ [false])

/-- a run and those before and after it -/
def enc (L : List Nat) (a : Nat) (R : List Nat) : List Bool := encL L ++ (List.replicate a true ++ encR R)

theorem enc_next (L : List Nat) (a b : Nat) (R : List Nat) : enc (a :: L) b R = enc L a (b :: R) := by
  simp [enc, encL, encR]

theorem exists_enc : ∀ r : List Bool, ∃ a R, r = enc [] a R := by
  intro r
  induction r with
  | nil => exact ⟨0, [], rfl⟩
  | cons x r ih =>
    obtain ⟨a, R, rfl⟩ := ih
    cases x with
    | true => exact ⟨a + 1, R, by simp [enc, encL, List.replicate_succ]⟩
    | false => exact ⟨0, a :: R, by simp [enc, encL, encR]⟩

theorem encL_cons_length (b : Nat) (L : List Nat) : (encL (b :: L)).length = (encL L).length + b + 1 := by
  simp [encL]; omega

theorem encR_cons_length (b : Nat) (R : List Nat) : (encR (b :: R)).length = (encR R).length + b + 1 := by
  simp [encR]; omega

theorem enc_length (L : List Nat) (a : Nat) (R : List Nat) : (enc L a R).length = (encL L).length + a + (encR R).length := by
  simp [enc]; omega

theorem length_le_encL : ∀ L : List Nat, L.length ≤ (encL L).length
  | [] => Nat.le_refl _
  | b :: L => by rw [encL_cons_length, List.length_cons]; have := length_le_encL L; omega

theorem length_le_encR : ∀ R : List Nat, R.length ≤ (encR R).length
  | [] => Nat.le_refl _
  | b :: R => by rw [encR_cons_length, List.length_cons]; have := length_le_encR R; omega

theorem takeWhile_run (a : Nat) (x : List Bool) (hx : x.head? ≠ some true) : (List.replicate a true ++ x).takeWhile id = List.replicate a true := by
  induction a with
  | zero =>
    cases x with
    | nil => rfl
    | cons y x =>
      cases y with
      | true => simp at hx
      | false => rfl
  | succ a ih => rw [List.replicate_succ, List.cons_append, List.takeWhile_cons]
                 rw [ih]; rfl

theorem encR_head (R : List Nat) : (encR R).head? ≠ some true := by cases R <;> simp [encR]

theorem encL_head (L : List Nat) : (encL L).reverse.head? ≠ some true := by cases L <;> simp [encL]

theorem scanDown_eq {r x : List Bool} {e a : Nat} {R : List Nat} (h : r = x ++ (List.replicate a true ++ encR R)) (he : e = x.length) : scanDown r e = e + a := by
  unfold scanDown
  rw [h, he, List.drop_left, takeWhile_run _ _ (encR_head R), List.length_replicate]

theorem scanUp_eq {r x : List Bool} {s a : Nat} {L : List Nat} (h : r = (encL L ++ List.replicate a true) ++ x) (he : s = (encL L).length + a) : scanUp r s = (encL L).length := by
  unfold scanUp
  have e : s = (encL L ++ List.replicate a true).length := by rw [List.length_append, List.length_replicate]; exact he
  rw [h, e, List.take_left, List.reverse_append, List.reverse_replicate, takeWhile_run _ _ (encL_head L), List.length_replicate, List.length_append, List.length_replicate]
  omega

/-- the group of a run -/
def grp (L : List Nat) (a : Nat) : Group := ⟨(encL L).length, (encL L).length + a⟩

theorem groupInit_eq (a : Nat) (R : List Nat) : groupInit (enc [] a R) = grp [] a := by
  unfold groupInit grp
  rw [scanDown_eq (r := enc [] a R) (e := 0) (x := []) (a := a) (R := R) rfl rfl]
  rfl

theorem groupNext_nil (L : List Nat) (a : Nat) : groupNext (enc L a []) (grp L a) = none := by
  unfold groupNext
  rw [if_pos]
  rw [enc_length]; rfl

theorem groupNext_cons (L : List Nat) (a b : Nat) (R : List Nat) : groupNext (enc L a (b :: R)) (grp L a) = some (grp (a :: L) b) := by
  unfold groupNext
  have h1 : (grp L a).stop = (encL L).length + a := rfl
  rw [if_neg (by rw [enc_length, encR_cons_length, h1]; omega), h1,
    scanDown_eq (x := encL (a :: L)) (a := b) (R := R) (by rw [← enc_next]; rfl) (by rw [encL_cons_length])]
  unfold grp
  rw [encL_cons_length]

theorem groupPrev_cons (L : List Nat) (a b : Nat) (R : List Nat) : groupPrev (enc (b :: L) a R) (grp (b :: L) a) = some (grp L b) := by
  unfold groupPrev
  have h1 : (grp (b :: L) a).start = (encL L).length + b + 1 := by rw [← encL_cons_length]; rfl
  rw [if_neg (by omega), h1, Nat.add_sub_cancel, scanUp_eq (L := L) (a := b) (x := encR (a :: R)) (by rw [enc_next]; simp [enc]) rfl]
  rfl

theorem slideDown_nil (ha : List Nat) (L : List Nat) (a : Nat) : slideDown ha (enc L a []) (grp L a) = none := by
  unfold slideDown
  rw [if_neg]
  intro h
  have := h.1
  rw [enc_length] at this
  exact absurd this (by simp [grp, encR])

theorem set_first (a : Nat) (x : List Bool) (h : 0 < a) : (List.replicate a true ++ x).set 0 false = false :: (List.replicate (a - 1) true ++ x) := by
  cases a with
  | zero => omega
  | succ a => rw [List.replicate_succ, List.cons_append, List.set_cons_zero, Nat.add_sub_cancel]

theorem set_next (a : Nat) (y : Bool) (x : List Bool) : (List.replicate a true ++ y :: x).set a true = List.replicate (a + 1) true ++ x := by
  rw [List.set_append_right _ _ (by simp)]
  simp [List.replicate_succ']

theorem slideDown_cons (ha : List Nat) (L : List Nat) {a : Nat} (h0 : 0 < a) (b : Nat) (R : List Nat) : slideDown ha (enc L a (b :: R)) (grp L a) =
    if ha.getD (encL L).length 0 = ha.getD ((encL L).length + a) 0 then some (enc (0 :: L) (a + b) R, grp (0 :: L) (a + b)) else none := by
  unfold slideDown
  have hr : ((enc L a (b :: R)).set (encL L).length false).set ((encL L).length + a) true = enc (0 :: L) (a + b) R := by
    unfold enc
    rw [List.set_append_right _ _ (Nat.le_refl _), Nat.sub_self, set_first _ _ h0, List.set_append_right _ _ (by omega),
      show (encL L).length + a - (encL L).length = (a - 1) + 1 by omega, List.set_cons_succ, encR, set_next,
      show a - 1 + 1 = a by omega]
    simp only [encL, List.append_assoc, List.replicate_zero, List.nil_append, List.singleton_append, rep_add]
  by_cases hc : ha.getD (encL L).length 0 = ha.getD ((encL L).length + a) 0
  · rw [if_pos ⟨by rw [enc_length, encR_cons_length]; show (encL L).length + a < _; omega, hc⟩, if_pos hc]
    dsimp only [grp]
    rw [hr, scanDown_eq (x := encL (0 :: L) ++ List.replicate a true) (a := b) (R := R) (by unfold enc; rw [rep_add]; simp only [List.append_assoc])
      (by rw [List.length_append, encL_cons_length, List.length_replicate]; omega), encL_cons_length]
    rw [show (encL L).length + a + 1 + b = (encL L).length + 0 + 1 + (a + b) by omega]
  · rw [if_neg (fun h => hc h.2), if_neg hc]

theorem slideUp_nil (ha : List Nat) (a : Nat) (R : List Nat) : slideUp ha (enc [] a R) (grp [] a) = none := by
  unfold slideUp
  rw [if_neg]
  intro h
  exact absurd h.1 (by simp [grp, encL])

theorem set_last (a : Nat) (y : List Bool) (h : 0 < a) : (List.replicate a true ++ y).set (a - 1) false = List.replicate (a - 1) true ++ false :: y := by
  obtain ⟨k, rfl⟩ : ∃ k, a = k + 1 := ⟨a - 1, by omega⟩
  rw [Nat.add_sub_cancel, List.replicate_succ', List.append_assoc, List.set_append_right _ _ (by simp)]
  simp

theorem slideUp_cons (ha : List Nat) (L : List Nat) {a : Nat} (h0 : 0 < a) (b : Nat) (R : List Nat) : slideUp ha (enc (b :: L) a R) (grp (b :: L) a) =
    if ha.getD ((encL L).length + b) 0 = ha.getD ((encL L).length + b + a) 0 then some (enc L (b + a) (0 :: R), grp L (b + a)) else none := by
  unfold slideUp
  have hl := encL_cons_length b L
  have hr : ((enc (b :: L) a R).set ((encL L).length + b) true).set ((encL L).length + b + a) false = enc L (b + a) (0 :: R) := by
    rw [enc_next]
    unfold enc
    rw [List.set_append_right _ _ (by omega), show (encL L).length + b - (encL L).length = b by omega, encR, set_next, List.set_append_right _ _ (by omega),
      show (encL L).length + b + a - (encL L).length = b + a by omega, ← List.append_assoc, ← rep_add]
    rw [show b + a = (b + 1 + a) - 1 by omega, set_last _ _ (by omega)]
    simp only [encR, List.replicate_zero, List.nil_append]
  have e1 : (encL (b :: L)).length - 1 = (encL L).length + b := by omega
  have e2 : (encL (b :: L)).length + a - 1 = (encL L).length + b + a := by omega
  by_cases hc : ha.getD ((encL L).length + b) 0 = ha.getD ((encL L).length + b + a) 0
  · rw [if_pos ⟨by show 0 < (encL (b :: L)).length; omega, by dsimp only [grp]; rw [e1, e2]; exact hc⟩, if_pos hc]
    dsimp only [grp]
    rw [e1, e2, hr, scanUp_eq (L := L) (a := b) (x := List.replicate a true ++ encR (0 :: R)) (by unfold enc; rw [rep_add]; simp only [List.append_assoc]) rfl]
    rw [Nat.add_assoc]
  · rw [if_neg (fun h => hc (by have := h.2; dsimp only [grp] at this; rwa [e1, e2] at this)), if_neg hc]

/-! ## Moving keeps the lines without mark -/

theorem kept_append {α : Type} : ∀ (x y : List α) (p q : List Bool), x.length = p.length → kept (x ++ y) (p ++ q) = kept x p ++ kept y q := by
  intro x
  induction x with
  | nil =>
    intro y p q h
    have : p = [] := List.length_eq_zero_iff.mp (by simpa using h.symm)
    subst this
    rfl
  | cons a x ih =>
    intro y p q h
    cases p with
    | nil => simp at h
    | cons m p =>
      have h : x.length = p.length := by simpa using h
      rw [List.cons_append, List.cons_append, kept, kept, ih y p q h]
      split <;> rfl

theorem kept_marked {α : Type} : ∀ (x : List α) (n : Nat), x.length = n → kept x (List.replicate n true) = [] := by
  intro x
  induction x with
  | nil => intro n h; subst h; rfl
  | cons a x ih =>
    intro n h
    subst h
    rw [List.length_cons, List.replicate_succ, kept, if_pos rfl]
    exact ih _ rfl

/-- a list in three parts -/
theorem three {α : Type} (l : List α) {i j : Nat} (h : i + j ≤ l.length) : ∃ x y z, l = x ++ (y ++ z) ∧ x.length = i ∧ y.length = j :=
  ⟨l.take i, (l.drop i).take j, (l.drop i).drop j, by rw [List.take_append_drop, List.take_append_drop], by rw [List.length_take]; omega,
    by rw [List.length_take, List.length_drop]; omega⟩

/-- a run of marks and the line after it, or the line before it: if the lines at the ends are the same, the same is kept -/
theorem kept_slide {y : List Nat} {a : Nat} (hy : y.length = a + 1) (h : y.getD 0 0 = y.getD a 0) :
    kept y (List.replicate a true ++ [false]) = kept y (false :: List.replicate a true) := by
  have e1 : kept y (List.replicate a true ++ [false]) = [y.getD a 0] := by
    obtain ⟨x, z, w, he, hx, hz⟩ := three y (i := a) (j := 1) (by omega)
    have hw : w = [] := List.length_eq_zero_iff.mp (by have := congrArg List.length he; simp only [List.length_append] at this; omega)
    obtain ⟨v, rfl⟩ := List.length_eq_one_iff.mp hz
    subst hw
    rw [he, List.append_nil, kept_append _ _ _ _ (by simpa using hx), kept_marked _ _ hx, List.nil_append, ← hx]
    simp [kept]
  have e2 : kept y (false :: List.replicate a true) = [y.getD 0 0] := by
    cases y with
    | nil => simp at hy
    | cons v y =>
      rw [kept, if_neg (by simp), kept_marked _ _ (by simpa using hy)]
      rfl
  rw [e1, e2, h]

theorem getD_mid {α : Type} {x y z : List α} {i j : Nat} (d : α) (hx : x.length = i) (hj : j < y.length) : (x ++ (y ++ z)).getD (i + j) d = y.getD j d := by
  simp only [List.getD_eq_getElem?_getD]
  rw [List.getElem?_append_right (by omega), show i + j - x.length = j by omega, List.getElem?_append_left hj]

theorem kept_down {ha : List Nat} {L : List Nat} {a b : Nat} {R : List Nat} (hl : (enc L a (b :: R)).length = ha.length)
    (h : ha.getD (encL L).length 0 = ha.getD ((encL L).length + a) 0) : kept ha (enc (0 :: L) (a + b) R) = kept ha (enc L a (b :: R)) := by
  rw [enc_length, encR_cons_length] at hl
  obtain ⟨x, y, z, he, hx, hy⟩ := three ha (i := (encL L).length) (j := a + 1) (by omega)
  have e1 : enc L a (b :: R) = encL L ++ ((List.replicate a true ++ [false]) ++ (List.replicate b true ++ encR R)) := by simp [enc, encR]
  have e2 : enc (0 :: L) (a + b) R = encL L ++ ((false :: List.replicate a true) ++ (List.replicate b true ++ encR R)) := by
    unfold enc; simp [encL]; rw [rep_add, List.append_assoc]
  have g1 := getD_mid (z := z) (j := 0) 0 hx (show 0 < y.length by omega)
  have g2 := getD_mid (z := z) (j := a) 0 hx (show a < y.length by omega)
  rw [← he] at g1 g2
  rw [Nat.add_zero] at g1
  rw [e1, e2, he, kept_append _ _ _ _ hx, kept_append _ _ _ _ hx, kept_append _ _ _ _ (by simp [hy]), kept_append _ _ _ _ (by simp [hy]),
    kept_slide hy (by rw [← g1, ← g2]; exact h)]

theorem kept_up {ha : List Nat} {L : List Nat} {a b : Nat} {R : List Nat} (hl : (enc (b :: L) a R).length = ha.length)
    (h : ha.getD ((encL L).length + b) 0 = ha.getD ((encL L).length + b + a) 0) : kept ha (enc L (b + a) (0 :: R)) = kept ha (enc (b :: L) a R) := by
  rw [enc_length, encL_cons_length] at hl
  obtain ⟨x, y, z, he, hx, hy⟩ := three ha (i := (encL L).length + b) (j := a + 1) (by omega)
  have e1 : enc (b :: L) a R = (encL L ++ List.replicate b true) ++ ((false :: List.replicate a true) ++ encR R) := by simp [enc, encL]
  have e2 : enc L (b + a) (0 :: R) = (encL L ++ List.replicate b true) ++ ((List.replicate a true ++ [false]) ++ encR R) := by
    unfold enc; simp [encR]; rw [rep_add, List.append_assoc]
  have g1 := getD_mid (z := z) (j := 0) 0 hx (show 0 < y.length by omega)
  have g2 := getD_mid (z := z) (j := a) 0 hx (show a < y.length by omega)
  rw [← he] at g1 g2
  rw [Nat.add_zero] at g1
  rw [e1, e2, he, kept_append x _ _ _ (by simpa using hx), kept_append x _ _ _ (by simpa using hx), kept_append _ _ _ _ (by simp [hy]), kept_append _ _ _ _ (by simp [hy]),
    kept_slide hy (by rw [← g1, ← g2]; exact h)]

end Verif.Xdiff
