import Verif.Hashsig.Model
/-! # The heaps -/
namespace Verif.Hashsig
open Spec

theorem bind_eq_ok {α β : Type} (x : Res α) (f : α → Res β) (y : β) : (x >>= f) = .ok y ↔ ∃ a, x = .ok a ∧ f a = .ok y := by
  cases x <;> simp

theorem val_ok {v : List UInt32} {i : Nat} (h : i < v.length) : val v i = .ok v[i] := by
  unfold val
  rw [List.getElem?_eq_getElem h]

theorem put_ok {v : List UInt32} {i : Nat} (h : i < v.length) (x : UInt32) : put v i x = .ok (v.set i x) := if_pos h

theorem swap_take {v : List UInt32} {i j n : Nat} (hi : i < v.length) (hj : j < v.length) (h1 : i < n) (h2 : j < n) :
    (((v.set i v[j]).set j v[i]).take n).Perm (v.take n) := by
  rw [List.take_set, List.take_set]
  have hi' : i < (v.take n).length := by simp; omega
  have hj' : j < (v.take n).length := by simp; omega
  have := List.set_set_perm hi' hj'
  rwa [List.getElem_take, List.getElem_take] at this

theorem heapUp_ok (mins : Bool) : ∀ fuel (v : List UInt32) (el : Nat), el < fuel → el < v.length →
    ∃ v', heapUp mins fuel v el = .ok v' ∧ v'.length = v.length ∧ (v'.take (el + 1)).Perm (v.take (el + 1)) ∧
      ∀ n, el < n → (v'.take n).Perm (v.take n) := by
  intro fuel
  induction fuel with
  | zero => intro v el h; omega
  | succ fuel ih =>
    intro v el h1 h2
    unfold heapUp
    by_cases h0 : el = 0
    · rw [if_pos h0]; exact ⟨v, rfl, rfl, .refl _, fun _ _ => .refl _⟩
    · rw [if_neg h0]
      have hp : (el - 1) / 2 < v.length := by omega
      simp only
      rw [val_ok hp, val_ok h2]
      simp only [Res.bind_ok]
      split
      · rw [put_ok h2]
        simp only [Res.bind_ok]
        rw [put_ok (by simpa using hp)]
        simp only [Res.bind_ok]
        obtain ⟨v', g1, g2, -, g4⟩ := ih ((v.set el v[(el - 1) / 2]).set ((el - 1) / 2) v[el]) ((el - 1) / 2) (by omega) (by simpa using hp)
        refine ⟨v', g1, by simpa using g2, ?_, fun n hn => ?_⟩
        · exact (g4 (el + 1) (by omega)).trans (swap_take h2 hp (by omega) (by omega))
        · exact (g4 n (by omega)).trans (swap_take h2 hp hn (by omega))
      · exact ⟨v, rfl, rfl, .refl _, fun _ _ => .refl _⟩

theorem heapDown_ok (mins : Bool) (size : Nat) : ∀ fuel (v : List UInt32) (el : Nat), size < v.length → size + 1 ≤ fuel + el → 0 < fuel →
    ∃ v', heapDown mins size fuel v el = .ok v' ∧ v'.length = v.length := by
  intro fuel
  induction fuel with
  | zero => intro v el _ _ h; omega
  | succ fuel ih =>
    intro v el h1 h2 h3
    unfold heapDown
    by_cases hs : el < size / 2
    · rw [if_pos hs, val_ok (by omega), val_ok (by omega), val_ok (by omega)]
      simp only [Res.bind_ok]
      split
      · exact ⟨v, rfl, rfl⟩
      · generalize hsw : (if cmp mins v[2 * el + 1] v[2 * el + 2] < 0 then 2 * el + 1 else 2 * el + 2) = sw
        have hb : el < sw ∧ sw < v.length ∧ sw ≤ size := by rw [← hsw]; split <;> omega
        rw [val_ok hb.2.1]
        simp only [Res.bind_ok]
        rw [put_ok (by omega)]
        simp only [Res.bind_ok]
        rw [put_ok (by simpa using hb.2.1)]
        simp only [Res.bind_ok]
        obtain ⟨v', g1, g2⟩ := ih ((v.set el v[sw]).set sw v[el]) sw (by simpa using h1) (by omega) (by omega)
        exact ⟨v', g1, by simpa using g2⟩
    · rw [if_neg hs]; exact ⟨v, rfl, rfl⟩

/-- the memory of a heap is 127 values -/
def HInv (h : Heap) : Prop := h.values.length = 127 ∧ h.size ≤ 127

theorem heapInit_inv : HInv heapInit := by simp [HInv, heapInit, heapSize]

theorem heapInsert_ok (mins : Bool) (h : Heap) (hi : HInv h) (x : UInt32) : ∃ h', heapInsert mins h x = .ok h' ∧ HInv h' ∧ 0 < h'.size ∧
    (h.size < 127 → h'.size = h.size + 1 ∧ (h'.values.take h'.size).Perm (h.values.take h.size ++ [x])) := by
  obtain ⟨h1, h2⟩ := hi
  unfold heapInsert
  by_cases hs : h.size < heapSize
  · have hs' : h.size < 127 := hs
    rw [if_pos hs, put_ok (by omega)]
    simp only [Res.bind_ok]
    obtain ⟨v', g1, g2, g3, -⟩ := heapUp_ok mins (h.size + 1) (h.values.set h.size x) h.size (by omega) (by simp; omega)
    rw [g1]
    simp only [Res.bind_ok]
    refine ⟨_, rfl, ⟨by simp [g2, h1], by simp; omega⟩, by simp, fun _ => ⟨rfl, ?_⟩⟩
    simp only
    refine g3.trans ?_
    rw [List.take_add_one]
    rw [List.take_set_of_le (Nat.le_refl _)]
    simp [show h.size < h.values.length by omega]
  · have hs' : h.size = 127 := by simp [heapSize] at hs; omega
    rw [if_neg hs, val_ok (by omega)]
    simp only [Res.bind_ok]
    split
    · rw [val_ok (by omega)]
      simp only [Res.bind_ok]
      rw [put_ok (by omega)]
      simp only [Res.bind_ok]
      obtain ⟨v', g1, g2⟩ := heapDown_ok mins (h.size - 1) h.size (h.values.set 0 (h.values[h.size - 1]'(by omega))) 0 (by simp; omega) (by omega)
        (by omega)
      rw [g1]
      simp only [Res.bind_ok]
      exact ⟨_, rfl, ⟨by simp [g2, h1], by simp; omega⟩, by simp; omega, fun h => absurd h (by omega)⟩
    · exact ⟨h, rfl, ⟨h1, h2⟩, by omega, fun h => absurd h (by omega)⟩

/-- many insertions -/
def heapAll (mins : Bool) : Heap → List UInt32 → Res Heap
  | h, [] => .ok h
  | h, x :: xs => do
    let h ← heapInsert mins h x
    heapAll mins h xs

theorem heapAll_append (mins : Bool) (h : Heap) (xs ys : List UInt32) :
    heapAll mins h (xs ++ ys) = (heapAll mins h xs >>= fun h => heapAll mins h ys) := by
  induction xs generalizing h with
  | nil => rfl
  | cons x xs ih =>
    simp only [List.cons_append, heapAll]
    cases heapInsert mins h x with
    | ok h' => simp [ih]
    | err e => rfl
    | ub => rfl

theorem heapAll_ok (mins : Bool) (xs : List UInt32) : ∀ h, HInv h → ∃ h', heapAll mins h xs = .ok h' ∧ HInv h' ∧
    (h'.size = 0 ↔ h.size = 0 ∧ xs = []) ∧
    (h.size + xs.length ≤ 127 → h'.size = h.size + xs.length ∧ (h'.values.take h'.size).Perm (h.values.take h.size ++ xs)) := by
  induction xs with
  | nil => intro h hi; exact ⟨h, rfl, hi, by simp, fun _ => ⟨rfl, by simp⟩⟩
  | cons x xs ih =>
    intro h hi
    obtain ⟨h1, g1, g2, g3, g4⟩ := heapInsert_ok mins h hi x
    obtain ⟨h2, k1, k2, k3, k4⟩ := ih h1 g2
    refine ⟨h2, ?_, k2, ?_, ?_⟩
    · simp only [heapAll, g1, Res.bind_ok, k1]
    · rw [k3]
      constructor
      · rintro ⟨h, -⟩; omega
      · rintro ⟨-, h⟩; cases h
    · intro hl
      simp only [List.length_cons] at hl
      obtain ⟨a1, a2⟩ := g4 (by omega)
      obtain ⟨b1, b2⟩ := k4 (by omega)
      refine ⟨by simp; omega, b2.trans ?_⟩
      refine (List.Perm.append_right xs a2).trans ?_
      simp

/-! ## Comparing -/

theorem cmp_flip (mins : Bool) (a b : UInt32) : (cmp mins a b < 0 ↔ 0 < cmp mins b a) ∧ (0 < cmp mins a b ↔ cmp mins b a < 0) := by
  have h1 : a < b → ¬ b < a := fun h h' => UInt32.lt_irrefl _ (UInt32.lt_trans h h')
  have h2 : b < a → ¬ a < b := fun h h' => UInt32.lt_irrefl _ (UInt32.lt_trans h h')
  unfold cmp
  by_cases hab : a < b
  · have := h1 hab; cases mins <;> simp [hab, this]
  · by_cases hba : b < a
    · cases mins <;> simp [hab, hba]
    · cases mins <;> simp [hab, hba]

theorem cmp_eq (mins : Bool) (a b : UInt32) (h1 : ¬ cmp mins a b < 0) (h2 : ¬ 0 < cmp mins a b) : a = b := by
  unfold cmp at h1 h2
  by_cases hab : a < b
  · cases mins <;> simp [hab] at h1 h2
    by_cases hba : b < a <;> simp [hba] at h1 h2
  · by_cases hba : b < a
    · cases mins <;> simp [hab, hba] at h1 h2
    · exact UInt32.le_antisymm (UInt32.not_lt.mp hba) (UInt32.not_lt.mp hab)

theorem cmp_self (mins : Bool) (a : UInt32) : cmp mins a a = 0 := by
  unfold cmp; cases mins <;> simp

theorem cmp_trans (mins : Bool) (a b c : UInt32) (h1 : cmp mins a b ≤ 0) (h2 : cmp mins b c ≤ 0) : cmp mins a c ≤ 0 := by
  have key : ∀ x y : UInt32, (cmp true x y ≤ 0 ↔ y ≤ x) ∧ (cmp false x y ≤ 0 ↔ x ≤ y) := by
    intro x y
    have a1 : y < x → ¬ x < y := fun h h' => UInt32.lt_irrefl _ (UInt32.lt_trans h h')
    unfold cmp
    constructor
    · by_cases h : y < x
      · simp [h, UInt32.le_of_lt h]
      · by_cases h' : x < y
        · simp [h, h', UInt32.not_le.mpr h']
        · simp [h, h', UInt32.not_lt.mp h']
    · by_cases h : x < y
      · simp [h, UInt32.le_of_lt h]
      · by_cases h' : y < x
        · simp [h, h', UInt32.not_le.mpr h']
        · simp [h, h', UInt32.not_lt.mp h']
  cases mins
  · rw [(key _ _).2] at *; exact UInt32.le_trans h1 h2
  · rw [(key _ _).1] at *; exact UInt32.le_trans h2 h1

theorem matchLoop_ok (mins : Bool) : ∀ fuel (a b : List UInt32) (n : Nat), a.length + b.length < fuel →
    ∃ m, matchLoop mins fuel a b n = .ok (n + m) ∧ m ≤ a.length ∧ m ≤ b.length ∧ matchLoop mins fuel b a n = .ok (n + m) := by
  intro fuel
  induction fuel with
  | zero => intro a b n h; omega
  | succ fuel ih =>
    intro a b n h
    cases a with
    | nil => exact ⟨0, rfl, by simp, by simp, by cases b <;> rfl⟩
    | cons x xs =>
      cases b with
      | nil => exact ⟨0, rfl, by simp, by simp, rfl⟩
      | cons y ys =>
        simp only [List.length_cons] at h
        simp only [matchLoop]
        obtain ⟨f1, f2⟩ := cmp_flip mins x y
        by_cases h1 : cmp mins x y < 0
        · obtain ⟨m, g1, g2, g3, g4⟩ := ih xs (y :: ys) n (by simp; omega)
          refine ⟨m, by rw [if_pos h1]; exact g1, by simp; omega, g3, ?_⟩
          rw [if_neg (by have := f1.1 h1; omega), if_pos (f1.1 h1)]; exact g4
        · by_cases h2 : 0 < cmp mins x y
          · obtain ⟨m, g1, g2, g3, g4⟩ := ih (x :: xs) ys n (by simp; omega)
            refine ⟨m, by rw [if_neg h1, if_pos h2]; exact g1, g2, by simp; omega, ?_⟩
            rw [if_pos (f2.1 h2)]; exact g4
          · obtain ⟨m, g1, g2, g3, g4⟩ := ih xs ys (n + 1) (by omega)
            have e : n + 1 + m = n + (m + 1) := by omega
            rw [e] at g1 g4
            refine ⟨m + 1, by rw [if_neg h1, if_neg h2]; exact g1, by simp; omega, by simp; omega, ?_⟩
            rw [if_neg (fun h => h2 (f2.2 h)), if_neg (fun h => h1 (f1.2 h))]; exact g4

theorem matchLoop_self (mins : Bool) : ∀ fuel (a : List UInt32) (n : Nat), a.length + a.length < fuel →
    matchLoop mins fuel a a n = .ok (n + a.length) := by
  intro fuel
  induction fuel with
  | zero => intro a n h; omega
  | succ fuel ih =>
    intro a n h
    cases a with
    | nil => rfl
    | cons x xs =>
      simp only [matchLoop, cmp_self]
      rw [if_neg (by omega), if_neg (by omega), ih xs (n + 1) (by simp at h; omega)]
      simp; omega

theorem common_of_no {x : UInt32} : ∀ {xs ys : List UInt32}, x ∉ xs → common xs (x :: ys) = common xs ys := by
  intro xs
  induction xs with
  | nil => intros; rfl
  | cons z zs ih =>
    intro ys h
    simp only [List.mem_cons, not_or] at h
    simp only [common]
    have e : (z ∈ x :: ys) ↔ z ∈ ys := by simp [Ne.symm h.1]
    by_cases hz : z ∈ ys
    · rw [if_pos (e.2 hz), if_pos hz, List.erase_cons_tail (by simp [h.1]), ih h.2]
    · rw [if_neg (fun hh => hz (e.1 hh)), if_neg hz, ih h.2]

theorem matchLoop_common (mins : Bool) : ∀ fuel (a b : List UInt32) (n : Nat), a.length + b.length < fuel →
    a.Pairwise (fun x y => cmp mins x y ≤ 0) → b.Pairwise (fun x y => cmp mins x y ≤ 0) →
    matchLoop mins fuel a b n = .ok (n + common a b) := by
  intro fuel
  induction fuel with
  | zero => intro a b n h; omega
  | succ fuel ih =>
    intro a b n h ha hb
    cases a with
    | nil => rfl
    | cons x xs =>
      cases b with
      | nil =>
        have : ∀ l : List UInt32, common l [] = 0 := by
          intro l; induction l with
          | nil => rfl
          | cons z zs ih => simp [common, ih]
        rw [this]; rfl
      | cons y ys =>
        simp only [List.length_cons] at h
        simp only [matchLoop]
        have ha' := List.pairwise_cons.mp ha
        have hb' := List.pairwise_cons.mp hb
        by_cases h1 : cmp mins x y < 0
        · rw [if_pos h1, ih xs (y :: ys) n (by simp; omega) ha'.2 hb]
          have hx : x ∉ y :: ys := by
            intro hx
            rcases List.mem_cons.mp hx with rfl | hx
            · rw [cmp_self] at h1; omega
            · have := hb'.1 x hx
              have := (cmp_flip mins x y).1.1 h1
              omega
          simp only [common, if_neg hx]
        · rw [if_neg h1]
          by_cases h2 : 0 < cmp mins x y
          · rw [if_pos h2, ih (x :: xs) ys n (by simp; omega) ha hb'.2]
            have hy : y ∉ x :: xs := by
              intro hy
              rcases List.mem_cons.mp hy with rfl | hy
              · rw [cmp_self] at h2; omega
              · have := ha'.1 y hy; omega
            rw [common_of_no hy]
          · rw [if_neg h2, ih xs ys (n + 1) (by omega) ha'.2 hb'.2]
            have := cmp_eq mins x y h1 h2
            subst this
            simp only [common, List.mem_cons, true_or, if_true, List.erase_cons_head]
            congr 1; omega

theorem common_perm_right {b b' : List UInt32} (h : b.Perm b') : ∀ a, common a b = common a b' := by
  intro a
  induction a generalizing b b' with
  | nil => rfl
  | cons x xs ih =>
    simp only [common, h.mem_iff]
    rw [ih (h.erase x), ih h]

theorem common_perm_left {a a' : List UInt32} (h : a.Perm a') : ∀ b, common a b = common a' b := by
  induction h with
  | nil => intro b; rfl
  | cons x h ih => intro b; simp only [common, ih]
  | swap x y l =>
    intro b
    by_cases hxy : x = y
    · subst hxy; rfl
    · simp only [common]
      have e1 : x ∈ b.erase y ↔ x ∈ b := List.mem_erase_of_ne hxy
      have e2 : y ∈ b.erase x ↔ y ∈ b := List.mem_erase_of_ne (Ne.symm hxy)
      by_cases hx : x ∈ b <;> by_cases hy : y ∈ b <;> simp [e1, e2, hx, hy, List.erase_comm x y]
  | trans _ _ ih1 ih2 => intro b; rw [ih1, ih2]

theorem place_perm (mins : Bool) (x : UInt32) (l : List UInt32) : (place mins x l).Perm (x :: l) := by
  induction l with
  | nil => exact .refl _
  | cons y ys ih =>
    rw [place]
    split
    · exact .refl _
    · exact (ih.cons y).trans (.swap x y ys)

theorem heapSort_perm (mins : Bool) (h : Heap) : (heapSort mins h).Perm (h.values.take h.size) := by
  unfold heapSort
  induction h.values.take h.size with
  | nil => exact .refl _
  | cons x l ih => exact (place_perm mins x _).trans (ih.cons x)

theorem place_sorted (mins : Bool) (x : UInt32) (l : List UInt32) (h : l.Pairwise (fun x y => cmp mins x y ≤ 0)) :
    (place mins x l).Pairwise (fun x y => cmp mins x y ≤ 0) := by
  induction l with
  | nil => simp [place]
  | cons y ys ih =>
    rw [place]
    split
    · rename_i hxy
      refine List.pairwise_cons.mpr ⟨?_, h⟩
      intro z hz
      rcases List.mem_cons.mp hz with rfl | hz
      · exact hxy
      · exact cmp_trans mins x y z hxy ((List.pairwise_cons.mp h).1 z hz)
    · rename_i hxy
      refine List.pairwise_cons.mpr ⟨?_, ih (List.pairwise_cons.mp h).2⟩
      intro z hz
      rcases List.mem_cons.mp ((place_perm mins x ys).mem_iff.mp hz) with rfl | hz
      · have := (cmp_flip mins z y).2.1 (by omega)
        omega
      · exact (List.pairwise_cons.mp h).1 z hz

theorem heapSort_sorted (mins : Bool) (h : Heap) : (heapSort mins h).Pairwise (fun x y => cmp mins x y ≤ 0) := by
  unfold heapSort
  induction h.values.take h.size with
  | nil => exact .nil
  | cons x l ih => exact place_sorted mins x _ ih

theorem heapSort_length (mins : Bool) (h : Heap) (hi : HInv h) : (heapSort mins h).length = h.size := by
  rw [(heapSort_perm mins h).length_eq, List.length_take, hi.1]
  exact Nat.min_eq_left hi.2

end Verif.Hashsig
