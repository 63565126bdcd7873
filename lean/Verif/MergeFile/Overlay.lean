import Verif.MergeFile.Model
/-! # The regions of a merge cover the files

Lemmas about `overlay`: from two scripts with the ancestor, regions such that both sides are the same between them. -/
namespace Verif.MergeFile
open Verif.Patch (Change splitLines)

/-- `k` lines from `i` on in `X` are those from `j` on in `Y` -/
def Al (X Y : List Bytes) (i j k : Nat) : Prop := i + k ≤ X.length ∧ j + k ≤ Y.length ∧ ∀ n < k, X[i + n]? = Y[j + n]?

theorem Al.symm {X Y : List Bytes} {i j k : Nat} (h : Al X Y i j k) : Al Y X j i k := ⟨h.2.1, h.1, fun n hn => (h.2.2 n hn).symm⟩

theorem Al.sub {X Y : List Bytes} {i j k i' j' k' : Nat} (h : Al X Y i j k) (hi : i ≤ i') (hj : i' + j = i + j') (hk : i' + k' ≤ i + k) : Al X Y i' j' k' := by
  refine ⟨by have := h.1; omega, by have := h.2.1; omega, fun n hn => ?_⟩
  have := h.2.2 (i' - i + n) (by omega)
  rwa [show i + (i' - i + n) = i' + n by omega, show j + (i' - i + n) = j' + n by omega] at this

theorem Al.trans {X Y Z : List Bytes} {i j l k : Nat} (h : Al X Y i j k) (h' : Al Y Z j l k) : Al X Z i l k := ⟨h.1, h'.2.1, fun n hn => (h.2.2 n hn).trans (h'.2.2 n hn)⟩

theorem Al.append {X Y : List Bytes} {i j k i' j' k' : Nat} (h : Al X Y i j k) (h' : Al X Y i' j' k') (hi : i' = i + k) (hj : j' = j + k) : Al X Y i j (k + k') := by
  subst hi; subst hj
  refine ⟨by have := h'.1; omega, by have := h'.2.1; omega, fun n hn => ?_⟩
  by_cases hk : n < k
  · exact h.2.2 n hk
  · have := h'.2.2 (n - k) (by omega)
    rwa [show i + k + (n - k) = i + n by omega, show j + k + (n - k) = j + n by omega] at this

theorem Al.zero {X Y : List Bytes} {i j : Nat} (h : i ≤ X.length) (h' : j ≤ Y.length) : Al X Y i j 0 := ⟨h, h', fun n hn => absurd hn (by omega)⟩

/-- the lines of a place -/
def slice (X : List Bytes) (i k : Nat) : List Bytes := (X.drop i).take k

theorem slice_length {X : List Bytes} {i k : Nat} (h : i + k ≤ X.length) : (slice X i k).length = k := by
  unfold slice; rw [List.length_take, List.length_drop]; omega

theorem al_iff {X Y : List Bytes} {i j k : Nat} (h : i + k ≤ X.length) (h' : j + k ≤ Y.length) : Al X Y i j k ↔ slice X i k = slice Y j k := by
  constructor
  · intro ha
    apply List.ext_getElem?
    intro n
    unfold slice
    rw [List.getElem?_take, List.getElem?_take]
    split
    · rw [List.getElem?_drop, List.getElem?_drop]; exact ha.2.2 n ‹_›
    · rfl
  · intro he
    refine ⟨h, h', fun n hn => ?_⟩
    have := congrArg (·[n]?) he
    unfold slice at this
    simp only [List.getElem?_take, hn, if_true, List.getElem?_drop] at this
    exact this

/-- what is left of a script from `c` in the old and `c'` in the new file on; the first change is not at once if `f` -/
inductive Rem (B N : List Bytes) : Bool → Nat → Nat → List Change → Prop
  | nil {f c c' k} : c + k = B.length → c' + k = N.length → Al B N c c' k → Rem B N f c c' []
  | cons {f c c' k xs} {x : Change} : (f = true → 0 < k) → Al B N c c' k → x.i1 = c + k → x.i2 = c' + k → 0 < x.chg1 + x.chg2 →
      Rem B N true (x.i1 + x.chg1) (x.i2 + x.chg2) xs → Rem B N f c c' (x :: xs)

theorem Rem.bound {B N : List Bytes} {f : Bool} {c c' : Nat} {xs : List Change} (h : Rem B N f c c' xs) : c ≤ B.length ∧ c' ≤ N.length := by
  cases h with
  | nil a b d => omega
  | cons a b d e _ => have := b.1; have := b.2.1; omega

/-- the cut may be moved within the lines before the first change -/
theorem Rem.move {B N : List Bytes} {f : Bool} {c c' d d' : Nat} {x : Change} {xs : List Change} (h : Rem B N f c c' (x :: xs)) (hd : c ≤ d) (hc : d + c' = c + d') (hx : d < x.i1) :
    Rem B N true d d' (x :: xs) := by
  cases h with
  | @cons _ _ _ k _ _ a b e g i j =>
    exact Rem.cons (k := x.i1 - d) (fun _ => by omega) (b.sub hd (by omega) (by omega)) (by omega) (by omega) i j

theorem Rem.move_nil {B N : List Bytes} {f g : Bool} {c c' d d' : Nat} (h : Rem B N f c c' []) (hd : c ≤ d) (hc : d + c' = c + d') (hx : d ≤ B.length) : Rem B N g d d' [] := by
  cases h with
  | @nil _ _ _ k a b e =>
    exact Rem.nil (k := B.length - d) (by omega) (by omega) (e.sub hd (by omega) (by omega))

/-- the region is what its mode says -/
def Fits (F : Files) (m : M) (n0 nb : Nat) : Prop :=
  m.mode = 0 ∨ (m.mode = 1 ∧ ∃ i k : Nat, m.i2 = i ∧ m.chg2 = k ∧ k = nb ∧ Al F.theirs F.base i n0 k) ∨ (m.mode = 2 ∧ ∃ i k : Nat, m.i1 = i ∧ m.chg1 = k ∧ k = nb ∧ Al F.ours F.base i n0 k) ∨
    (m.mode = 4 ∧ ∃ i j k : Nat, m.i1 = i ∧ m.i2 = j ∧ m.chg1 = k ∧ m.chg2 = k ∧ Al F.ours F.theirs i j k)

/-- The regions are in order from the given places of the three files on, and between them both sides are the same. `d3`: their places in the ancestor are right; `f`: the first is not at once. -/
inductive Laid (F : Files) (d3 : Bool) : Bool → Nat → Nat → Nat → List M → Prop
  | nil {f} {c0 c1 c2 k : Nat} : c0 ≤ F.base.length → c1 + k = F.ours.length → c2 + k = F.theirs.length → Al F.ours F.theirs c1 c2 k → Laid F d3 f c0 c1 c2 []
  | cons {f} {c0 c1 c2 k n0 nb k1 k2 : Nat} {ms} {m : M} : (f = true → 0 < k) → Al F.ours F.theirs c1 c2 k → c0 ≤ n0 → m.i1 = (c1 + k : Nat) → m.i2 = (c2 + k : Nat) → m.chg1 = (k1 : Nat) → m.chg2 = (k2 : Nat) →
      (d3 = true → m.i0 = n0 ∧ m.chg0 = nb) → Fits F m n0 nb → Laid F d3 true (n0 + nb) (c1 + k + k1) (c2 + k + k2) ms → Laid F d3 f c0 c1 c2 (m :: ms)

theorem Laid.bound {F : Files} {d3 f : Bool} {c0 c1 c2 : Nat} {ms : List M} (h : Laid F d3 f c0 c1 c2 ms) : c0 ≤ F.base.length ∧ c1 ≤ F.ours.length ∧ c2 ≤ F.theirs.length := by
  induction h with
  | nil => omega
  | cons => omega

/-- the places in the ancestor need not be right -/
theorem Laid.weak {F : Files} {d3 f : Bool} {c0 c1 c2 : Nat} {ms : List M} (h : Laid F d3 f c0 c1 c2 ms) : Laid F false f c0 c1 c2 ms := by
  induction h with
  | nil a b c d => exact .nil a b c d
  | cons a b c d e g i j k _ ih => exact .cons a b c d e g i (by simp) k ih

/-- the start may be moved back over common lines -/
theorem Laid.back {F : Files} {d3 f g : Bool} {c0 c1 c2 d0 d1 d2 : Nat} {ms : List M} (h : Laid F d3 f c0 c1 c2 ms) (h0 : d0 ≤ c0) {k : Nat} (h1 : c1 = d1 + k) (h2 : c2 = d2 + k)
    (ha : Al F.ours F.theirs d1 d2 k) (hf : g = true → f = true ∨ 0 < k) : Laid F d3 g d0 d1 d2 ms := by
  cases h with
  | @nil _ _ _ _ k' a b c d => exact .nil (k := k + k') (by omega) (by omega) (by omega) (ha.append d h1 h2)
  | @cons _ _ _ _ k' n0 nb k1 k2 ms m a b c d e i j l o p =>
    refine .cons (k := k + k') (fun hg => ?_) (ha.append b h1 h2) (by omega) (by omega) (by omega) i j l o ?_
    · rcases hf hg with r | r
      · have := a r; omega
      · omega
    · rwa [show d1 + (k + k') + k1 = c1 + k' + k1 by omega, show d2 + (k + k') + k2 = c2 + k' + k2 by omega]

/-! ## The sides swapped -/

def swapF (F : Files) : Files := ⟨F.base, F.theirs, F.ours⟩

def swapMode (n : Nat) : Nat := if n = 1 then 2 else if n = 2 then 1 else n

def swapM (m : M) : M := ⟨swapMode m.mode, m.i0, m.chg0, m.i2, m.chg2, m.i1, m.chg1⟩

theorem swapMode_swap (n : Nat) : swapMode (swapMode n) = n := by unfold swapMode; split <;> (try split) <;> simp_all

theorem swapMode_inj {a b : Nat} : swapMode a = swapMode b ↔ a = b := ⟨fun h => by rw [← swapMode_swap a, h, swapMode_swap], fun h => h ▸ rfl⟩

theorem swapM_swap (m : M) : swapM (swapM m) = m := by unfold swapM; simp [swapMode_swap]

theorem swap_touches (l m : M) : touches (swapM l) (swapM m) = touches l m := by
  unfold touches swapM
  exact Bool.or_comm _ _

theorem swap_widen (l m : M) : widen (swapM l) (swapM m) = swapM (widen l m) := by
  simp only [widen, swapM, ne_eq, swapMode_inj]
  congr 1
  split <;> rfl

theorem swap_push (l : Option M) (m : M) : push (l.map swapM) (swapM m) = ((push l m).1.map swapM, swapM (push l m).2) := by
  cases l with
  | none => rfl
  | some l =>
    simp only [push, Option.map_some, swap_touches]
    split
    · simp [swap_widen]
    · rfl

theorem range_cases (l : List Bytes) (i c : Int) : (∃ x, range l i c = .ok x) ∨ range l i c = .ub := by unfold range; split <;> simp

theorem swap_identical (F : Files) (x1 x2 : Change) : identical (swapF F) x2 x1 = identical F x1 x2 := by
  unfold identical
  by_cases h : x1.i1 ≠ x2.i1 ∨ x1.chg1 ≠ x2.chg1 ∨ x1.chg2 ≠ x2.chg2
  · rw [if_pos h, if_pos (by omega)]
  · rw [if_neg h, if_neg (by omega)]
    have : x1.chg2 = x2.chg2 := by omega
    unfold sameLines swapF
    rw [← this]
    rcases range_cases F.ours x1.i2 x1.chg2 with ⟨a, ha⟩ | ha <;> rcases range_cases F.theirs x2.i2 x1.chg2 with ⟨b, hb⟩ | hb <;>
      simp [ha, hb, eq_comm]

theorem swap_conflict (x1 x2 : Change) : conflict x2 x1 = swapM (conflict x1 x2) := by
  simp only [conflict, swapM, swapMode]
  simp only [M.mk.injEq]
  refine ⟨rfl, ?_, ?_, ?_, ?_, ?_, ?_⟩ <;> (repeat' split) <;> omega

theorem swap_first (x1 x2 : Change) : second x2 x1 = swapM (first x1 x2) := by simp [second, first, swapM, swapMode]
theorem swap_second (x1 x2 : Change) : first x2 x1 = swapM (second x1 x2) := by simp [second, first, swapM, swapMode]
theorem swap_restFirst (F : Files) (x : Change) : restSecond (swapF F) x = swapM (restFirst F x) := by simp [restSecond, restFirst, swapM, swapMode, swapF]
theorem swap_restSecond (F : Files) (x : Change) : restFirst (swapF F) x = swapM (restSecond F x) := by simp [restSecond, restFirst, swapM, swapMode, swapF]

/-- the result with the sides swapped -/
def swapR (r : Res (List M)) : Res (List M) := r >>= fun ms => .ok (ms.map swapM)

theorem swapR_bind (r : Res (List M)) (a : List M) : (swapR r >>= fun ms => .ok (a.map swapM ++ ms)) = swapR (r >>= fun ms => .ok (a ++ ms)) := by
  unfold swapR
  cases r <;> simp

/-- Swapping the sides swaps the regions. -/
theorem overlay_swap (F : Files) : ∀ (fuel : Nat) (xs1 xs2 : List Change) (last : Option M), overlay (swapF F) fuel xs2 xs1 (last.map swapM) = swapR (overlay F fuel xs1 xs2 last) := by
  intro fuel
  induction fuel with
  | zero =>
    intro xs1 xs2 last
    cases xs1 <;> cases xs2 <;> cases last <;> simp [overlay, swapR]
  | succ fuel ih =>
    intro xs1 xs2 last
    have key : ∀ (ys1 ys2 : List Change) (m : M), (overlay (swapF F) fuel ys2 ys1 (some (push (last.map swapM) (swapM m)).2) >>= fun ms => .ok ((push (last.map swapM) (swapM m)).1 ++ ms)) =
        swapR (overlay F fuel ys1 ys2 (some (push last m).2) >>= fun ms => .ok ((push last m).1 ++ ms)) := by
      intro ys1 ys2 m
      rw [swap_push]
      dsimp only
      rw [show some (swapM (push last m).2) = (some (push last m).2).map swapM from rfl, ih, swapR_bind]
    cases xs1 with
    | nil =>
      cases xs2 with
      | nil => cases last <;> simp [overlay, swapR]
      | cons x2 xs2 => simp only [overlay]; rw [swap_restSecond, key]
    | cons x1 xs1 =>
      cases xs2 with
      | nil => simp only [overlay]; rw [swap_restFirst, key]
      | cons x2 xs2 =>
        simp only [overlay]
        rw [swap_first, swap_second, swap_identical, swap_conflict]
        by_cases h1 : x1.i1 + x1.chg1 < x2.i1
        · rw [if_pos h1, if_neg (by omega), if_pos h1, key]
        · by_cases h2 : x2.i1 + x2.chg1 < x1.i1
          · rw [if_pos h2, if_neg h1, if_pos h2, key]
          · rw [if_neg h1, if_neg h2, if_neg h1, if_neg h2]
            cases identical F x1 x2 with
            | ok b => 
              simp only [Res.bind_ok]
              cases b
              · simp only [Bool.false_eq_true, if_false]; rw [key]
              · simp only [if_true]; rw [ih]
            | _ => rfl

theorem Fits.swap {F : Files} {m : M} {n0 nb : Nat} (h : Fits F m n0 nb) : Fits (swapF F) (swapM m) n0 nb := by
  rcases h with h | ⟨h, r⟩ | ⟨h, r⟩ | ⟨h, i, j, k, a, b, c, d, e⟩
  · left; simp [swapM, swapMode, h]
  · right; right; left; exact ⟨by simp [swapM, swapMode, h], r⟩
  · right; left; exact ⟨by simp [swapM, swapMode, h], r⟩
  · right; right; right; exact ⟨by simp [swapM, swapMode, h], j, i, k, b, a, d, c, e.symm⟩

theorem Laid.swap {F : Files} {d3 f : Bool} {c0 c1 c2 : Nat} {ms : List M} (h : Laid F d3 f c0 c1 c2 ms) : Laid (swapF F) d3 f c0 c2 c1 (ms.map swapM) := by
  induction h with
  | nil a b c d => exact .nil a c b d.symm
  | cons a b c d e g i j k _ ih => exact .cons a b.symm c e d i g j k.swap ih


/-! ## The regions -/

/-- the places before the first change of either script are the same in all files, and those from the end of the last region on the same on both sides -/
structure Clean (F : Files) (f : Bool) (e0 e1 e2 : Nat) (xs1 xs2 : List Change) (last : Option M) : Prop where
  cut : ∃ c0 c1 c2 k : Nat, e0 ≤ c0 ∧ c1 = e1 + k ∧ c2 = e2 + k ∧ Al F.ours F.theirs e1 e2 k ∧ Rem F.base F.ours f c0 c1 xs1 ∧ Rem F.base F.theirs f c0 c2 xs2
  last : ∀ l, last = some l → f = true ∧ l.i1 + l.chg1 = e1 ∧ l.i2 + l.chg2 = e2

/-- the last region goes to the end of the first change of the first script, which is not done yet -/
structure Hanging (F : Files) (x1 : Change) (xs1 xs2 : List Change) (l : M) : Prop where
  mode : l.mode = 0
  rest : Rem F.base F.ours true (x1.i1 + x1.chg1) (x1.i2 + x1.chg2) xs1
  i0 : 0 ≤ l.i0 ∧ l.i0 ≤ x1.i1
  i1 : 0 ≤ l.i1 ∧ l.i1 ≤ x1.i2
  end0 : l.i0 + l.chg0 = (x1.i1 + x1.chg1 : Nat)
  end1 : l.i1 + l.chg1 = (x1.i2 + x1.chg2 : Nat)
  other : ∃ d0 d2 : Nat, x1.i1 ≤ d0 ∧ d0 ≤ x1.i1 + x1.chg1 ∧ Rem F.base F.theirs true d0 d2 xs2 ∧ l.i2 + l.chg2 = (d2 + (x1.i1 + x1.chg1 - d0) : Nat) ∧ 0 ≤ l.i2 ∧ l.i2 ≤ d2

/-- what comes of a region that is made larger, and those after it -/
def Grown (F : Files) (l : M) (r : Res (List M)) : Prop :=
  ∃ (l' : M) (ms : List M) (f0 f1 f2 : Nat), r = .ok (l' :: ms) ∧ l'.mode = 0 ∧ l'.i0 = l.i0 ∧ l'.i1 = l.i1 ∧ l'.i2 = l.i2 ∧
    0 ≤ l'.chg0 ∧ 0 ≤ l'.chg1 ∧ 0 ≤ l'.chg2 ∧ l'.i0 + l'.chg0 = f0 ∧ l'.i1 + l'.chg1 = f1 ∧ l'.i2 + l'.chg2 = f2 ∧ Laid F true true f0 f1 f2 ms

/-- there is a line between any two changes of the scripts, or they are the same -/
def Apart (F : Files) (xs1 xs2 : List Change) : Prop :=
  ∀ x1 ∈ xs1, ∀ x2 ∈ xs2, x1.i1 + x1.chg1 < x2.i1 ∨ x2.i1 + x2.chg1 < x1.i1 ∨ identical F x1 x2 = .ok true

theorem Apart.nil {F : Files} (xs1 : List Change) : Apart F xs1 [] := fun _ _ x hx => nomatch hx

theorem Apart.swap {F : Files} {xs1 xs2 : List Change} (h : Apart F xs1 xs2) : Apart (swapF F) xs2 xs1 := by
  intro x2 h2 x1 h1
  rw [swap_identical]
  rcases h x1 h1 x2 h2 with h | h | h
  · exact .inr (.inl h)
  · exact .inl h
  · exact .inr (.inr h)

theorem apart_swap {F : Files} {xs1 xs2 : List Change} : Apart (swapF F) xs2 xs1 ↔ Apart F xs1 xs2 := ⟨fun h => h.swap, fun h => h.swap⟩

theorem apart_first {F : Files} {x1 : Change} {xs1 ys2 : List Change} (h : ∀ y ∈ ys2, x1.i1 + x1.chg1 < y.i1) : Apart F (x1 :: xs1) ys2 ↔ Apart F xs1 ys2 := by
  constructor
  · intro ha x hx; exact ha x (List.mem_cons_of_mem _ hx)
  · intro ha x hx y hy
    rcases List.mem_cons.1 hx with rfl | hx
    · exact .inl (h y hy)
    · exact ha x hx y hy

theorem Rem.after {B N : List Bytes} {f : Bool} {c c' : Nat} {xs : List Change} (h : Rem B N f c c' xs) : ∀ x ∈ xs, c ≤ x.i1 ∧ (f = true → c < x.i1) := by
  induction h with
  | nil => intro x hx; cases hx
  | cons a b d e g i ih =>
    intro y hy
    rcases List.mem_cons.1 hy with rfl | hy
    · exact ⟨by omega, fun hf => by have := a hf; omega⟩
    · have := (ih y hy).2 rfl
      exact ⟨by omega, fun _ => by omega⟩

theorem apart_same {F : Files} {x1 x2 : Change} {xs1 xs2 : List Change} (hid : identical F x1 x2 = .ok true) (h1 : x2.i1 = x1.i1) (h2 : x2.chg1 = x1.chg1)
    (a1 : ∀ x ∈ xs1, x1.i1 + x1.chg1 < x.i1) (a2 : ∀ x ∈ xs2, x2.i1 + x2.chg1 < x.i1) : Apart F (x1 :: xs1) (x2 :: xs2) ↔ Apart F xs1 xs2 := by
  constructor
  · intro ha x hx y hy; exact ha x (List.mem_cons_of_mem _ hx) y (List.mem_cons_of_mem _ hy)
  · intro ha x hx y hy
    rcases List.mem_cons.1 hx with rfl | hx
    · rcases List.mem_cons.1 hy with rfl | hy
      · exact .inr (.inr hid)
      · have := a2 y hy; left; omega
    · rcases List.mem_cons.1 hy with rfl | hy
      · have := a1 x hx; right; left; omega
      · exact ha x hx y hy

/-- no region is in conflict -/
def NoConflict (ms : List M) : Prop := ∀ m ∈ ms, m.mode ≠ 0

theorem noConflict_cons {m : M} {ms : List M} : NoConflict (m :: ms) ↔ m.mode ≠ 0 ∧ NoConflict ms := by simp [NoConflict]

theorem noConflict_swap {ms : List M} : NoConflict (ms.map swapM) ↔ NoConflict ms := by
  unfold NoConflict
  constructor
  · intro h m hm
    have := h _ (List.mem_map_of_mem hm)
    intro h0; apply this; simp [swapM, swapMode, h0]
  · intro h m hm
    obtain ⟨m', hm', rfl⟩ := List.mem_map.1 hm
    have := h m' hm'
    intro h0; apply this
    simp only [swapM] at h0
    exact swapMode_inj.1 h0

def CleanOk (fuel : Nat) : Prop := ∀ (F : Files) (f : Bool) (e0 e1 e2 : Nat) (xs1 xs2 : List Change) (last : Option M), xs1.length + xs2.length ≤ fuel → Clean F f e0 e1 e2 xs1 xs2 last →
  ∃ ms, overlay F fuel xs1 xs2 last = .ok (last.toList ++ ms) ∧ Laid F true f e0 e1 e2 ms ∧ (NoConflict ms ↔ Apart F xs1 xs2)

def HangingOk (fuel : Nat) : Prop := ∀ (F : Files) (x1 : Change) (xs1 xs2 : List Change) (l : M), (x1 :: xs1).length + xs2.length ≤ fuel → Hanging F x1 xs1 xs2 l →
  Grown F l (overlay F fuel (x1 :: xs1) xs2 (some l))

theorem Clean.swap {F : Files} {f : Bool} {e0 e1 e2 : Nat} {xs1 xs2 : List Change} {last : Option M} (h : Clean F f e0 e1 e2 xs1 xs2 last) :
    Clean (swapF F) f e0 e2 e1 xs2 xs1 (last.map swapM) := by
  obtain ⟨⟨c0, c1, c2, k, a, b, c, d, e, g⟩, hl⟩ := h
  refine ⟨⟨c0, c2, c1, k, a, c, b, d.symm, g, e⟩, ?_⟩
  intro l h
  rw [Option.map_eq_some_iff] at h
  obtain ⟨l', h', rfl⟩ := h
  obtain ⟨x, y, z⟩ := hl l' h'
  exact ⟨x, z, y⟩

theorem Grown.swap {F : Files} {l : M} {r : Res (List M)} (h : Grown F l r) : Grown (swapF F) (swapM l) (swapR r) := by
  obtain ⟨l', ms, f0, f1, f2, a, b, c, d, e, g, h1, h2, i, j, k, m⟩ := h
  refine ⟨swapM l', ms.map swapM, f0, f2, f1, ?_, ?_, c, e, d, g, h2, h1, i, k, j, m.swap⟩
  · rw [a]; rfl
  · simp [swapM, swapMode, b]

theorem Grown.swap_back {F : Files} {l : M} {r : Res (List M)} (h : Grown (swapF F) (swapM l) (swapR r)) : Grown F l r := by
  have := h.swap
  rw [swapM_swap] at this
  have e : swapR (swapR r) = r := by
    unfold swapR
    cases r <;> simp [swapM_swap, Function.comp_def]
  rw [e] at this
  exact this

/-- pushing a region that does not touch the last one -/
theorem push_apart {last : Option M} {m : M} {e1 e2 : Nat} (hl : ∀ l, last = some l → l.i1 + l.chg1 = e1 ∧ l.i2 + l.chg2 = e2) (h1 : last.isSome → (e1 : Int) < m.i1) (h2 : last.isSome → (e2 : Int) < m.i2) :
    push last m = (last.toList, m) := by
  cases last with
  | none => rfl
  | some l =>
    obtain ⟨a, b⟩ := hl l rfl
    have h1 := h1 rfl
    have h2 := h2 rfl
    simp only [push]
    rw [if_neg]
    · rfl
    · simp only [touches, Bool.or_eq_true, decide_eq_true_eq]; omega

theorem clean_step {F : Files} {fuel : Nat} {f : Bool} {e0 e1 e2 : Nat} {last : Option M} {m : M} {ys1 ys2 : List Change} (ih : CleanOk fuel) (hfuel : ys1.length + ys2.length ≤ fuel)
    (hl : ∀ l, last = some l → f = true ∧ l.i1 + l.chg1 = e1 ∧ l.i2 + l.chg2 = e2) {k n0 nb k1 k2 : Nat} (hk : f = true → 0 < k) (ha : Al F.ours F.theirs e1 e2 k) (h0 : e0 ≤ n0)
    (hm1 : m.i1 = (e1 + k : Nat)) (hm2 : m.i2 = (e2 + k : Nat)) (hc1 : m.chg1 = k1) (hc2 : m.chg2 = k2) (hb : m.i0 = n0) (hb' : m.chg0 = nb) (hfit : Fits F m n0 nb)
    (r1 : Rem F.base F.ours true (n0 + nb) (e1 + k + k1) ys1) (r2 : Rem F.base F.theirs true (n0 + nb) (e2 + k + k2) ys2) :
    ∃ ms, (overlay F fuel ys1 ys2 (some (push last m).2) >>= fun ms => .ok ((push last m).1 ++ ms)) = .ok (last.toList ++ ms) ∧ Laid F true f e0 e1 e2 ms ∧ (NoConflict ms ↔ m.mode ≠ 0 ∧ Apart F ys1 ys2) := by
  have hp : push last m = (last.toList, m) := push_apart (e1 := e1) (e2 := e2) (fun l h => (hl l h).2)
    (by intro h; cases last with
      | none => cases h
      | some l => have := hk (hl l rfl).1; omega)
    (by intro h; cases last with
      | none => cases h
      | some l => have := hk (hl l rfl).1; omega)
  obtain ⟨ms, hms, hlaid, hno⟩ := ih F true (n0 + nb) (e1 + k + k1) (e2 + k + k2) ys1 ys2 (some m) hfuel
    ⟨⟨n0 + nb, e1 + k + k1, e2 + k + k2, 0, by omega, rfl, rfl, Al.zero r1.bound.2 r2.bound.2, r1, r2⟩, by
      intro l h; cases h; exact ⟨rfl, by omega, by omega⟩⟩
  rw [hp]
  dsimp only
  rw [hms, Res.bind_ok]
  exact ⟨m :: ms, rfl, .cons hk ha h0 hm1 hm2 hc1 hc2 (fun _ => ⟨hb, hb'⟩) hfit hlaid, by rw [noConflict_cons, hno]⟩

/-- the last region goes to the end of the later of two changes that touch -/
structure Both (F : Files) (x1 : Change) (xs1 : List Change) (x2 : Change) (xs2 : List Change) (l : M) : Prop where
  mode : l.mode = 0
  rest1 : Rem F.base F.ours true (x1.i1 + x1.chg1) (x1.i2 + x1.chg2) xs1
  rest2 : Rem F.base F.theirs true (x2.i1 + x2.chg1) (x2.i2 + x2.chg2) xs2
  touch1 : x2.i1 ≤ x1.i1 + x1.chg1
  touch2 : x1.i1 ≤ x2.i1 + x2.chg1
  i0 : 0 ≤ l.i0 ∧ l.i0 ≤ x1.i1 ∧ l.i0 ≤ x2.i1
  i1 : 0 ≤ l.i1 ∧ l.i1 ≤ x1.i2
  i2 : 0 ≤ l.i2 ∧ l.i2 ≤ x2.i2
  end0 : l.i0 + l.chg0 = (max (x1.i1 + x1.chg1) (x2.i1 + x2.chg1) : Nat)
  end1 : l.i1 + l.chg1 = (x1.i2 + x1.chg2 + (max (x1.i1 + x1.chg1) (x2.i1 + x2.chg1) - (x1.i1 + x1.chg1)) : Nat)
  end2 : l.i2 + l.chg2 = (x2.i2 + x2.chg2 + (max (x1.i1 + x1.chg1) (x2.i1 + x2.chg1) - (x2.i1 + x2.chg1)) : Nat)

theorem Both.swap {F : Files} {x1 x2 : Change} {xs1 xs2 : List Change} {l : M} (h : Both F x1 xs1 x2 xs2 l) : Both (swapF F) x2 xs2 x1 xs1 (swapM l) where
  mode := by simp [swapM, swapMode, h.mode]
  rest1 := h.rest2
  rest2 := h.rest1
  touch1 := h.touch2
  touch2 := h.touch1
  i0 := ⟨h.i0.1, h.i0.2.2, h.i0.2.1⟩
  i1 := h.i2
  i2 := h.i1
  end0 := by rw [Nat.max_comm]; exact h.end0
  end1 := by rw [Nat.max_comm]; exact h.end2
  end2 := by rw [Nat.max_comm]; exact h.end1

/-- `Clean` with a last region gives what `Grown` says -/
theorem grown_of_clean {F : Files} {fuel : Nat} (ih : CleanOk fuel) {l : M} {e0 e1 e2 : Nat} {ys1 ys2 : List Change} (hfuel : ys1.length + ys2.length ≤ fuel) (hm : l.mode = 0)
    (h0 : l.i0 + l.chg0 = e0) (h1 : l.i1 + l.chg1 = e1) (h2 : l.i2 + l.chg2 = e2) (hc0 : 0 ≤ l.chg0) (hc1 : 0 ≤ l.chg1) (hc2 : 0 ≤ l.chg2)
    (r1 : Rem F.base F.ours true e0 e1 ys1) (r2 : Rem F.base F.theirs true e0 e2 ys2) : Grown F l (overlay F fuel ys1 ys2 (some l)) := by
  obtain ⟨ms, hms, hlaid, hno⟩ := ih F true e0 e1 e2 ys1 ys2 (some l) hfuel
    ⟨⟨e0, e1, e2, 0, Nat.le_refl _, rfl, rfl, Al.zero r1.bound.2 r2.bound.2, r1, r2⟩, by intro l' h; cases h; exact ⟨rfl, h1, h2⟩⟩
  exact ⟨l, ms, e0, e1, e2, hms, hm, rfl, rfl, rfl, hc0, hc1, hc2, h0, h1, h2, hlaid⟩

theorem both_gt {F : Files} {fuel : Nat} (ihh : HangingOk fuel) {x1 x2 : Change} {xs1 xs2 : List Change} {l : M} (h : Both F x1 xs1 x2 xs2 l) (hfuel : (x1 :: xs1).length + xs2.length ≤ fuel)
    (hgt : x2.i1 + x2.chg1 < x1.i1 + x1.chg1) : Grown F l (overlay F fuel (x1 :: xs1) xs2 (some l)) := by
  obtain ⟨a, b, c, d, e, g, i, j, k, m, n⟩ := h
  refine ihh F x1 xs1 xs2 l hfuel ⟨a, b, ⟨g.1, g.2.1⟩, i, by omega, by omega, x2.i1 + x2.chg1, x2.i2 + x2.chg2, e, by omega, c, by omega, by omega, by omega⟩

theorem both_step {F : Files} {fuel : Nat} (ihc : CleanOk fuel) (ihh : HangingOk fuel) {x1 x2 : Change} {xs1 xs2 : List Change} {l : M} (h : Both F x1 xs1 x2 xs2 l)
    (hfuel : (x1 :: xs1).length + (x2 :: xs2).length ≤ fuel + 1) :
    Grown F l (overlay F fuel (advance x1 xs1 (x1.i1 + x1.chg1) (x2.i1 + x2.chg1)) (advance x2 xs2 (x2.i1 + x2.chg1) (x1.i1 + x1.chg1)) (some l)) := by
  simp only [List.length_cons] at hfuel
  unfold advance
  by_cases h1 : x2.i1 + x2.chg1 < x1.i1 + x1.chg1
  · rw [if_neg (by omega), if_pos (by omega)]
    exact both_gt ihh h (by simp only [List.length_cons]; omega) h1
  · rw [if_pos (by omega)]
    by_cases h2 : x1.i1 + x1.chg1 < x2.i1 + x2.chg1
    · rw [if_neg (by omega)]
      apply Grown.swap_back
      rw [← overlay_swap]
      exact both_gt ihh h.swap (by simp only [List.length_cons]; omega) h2
    · rw [if_pos (by omega)]
      obtain ⟨a, b, c, d, e, g, i, j, k, m, n⟩ := h
      have he : x2.i1 + x2.chg1 = x1.i1 + x1.chg1 := by omega
      refine grown_of_clean ihc (e0 := x1.i1 + x1.chg1) (e1 := x1.i2 + x1.chg2) (e2 := x2.i2 + x2.chg2) (by omega) a (by omega) (by omega) (by omega) (by omega) (by omega) (by omega) b ?_
      rwa [he] at c

/-- a conflict of two changes that are next in the scripts -/
theorem both_conflict {F : Files} {x1 x2 : Change} {xs1 xs2 : List Change} {c0 c1 c2 : Nat} {f : Bool} (h1 : Rem F.base F.ours f c0 c1 (x1 :: xs1)) (h2 : Rem F.base F.theirs f c0 c2 (x2 :: xs2))
    (t1 : x2.i1 ≤ x1.i1 + x1.chg1) (t2 : x1.i1 ≤ x2.i1 + x2.chg1) :
    Both F x1 xs1 x2 xs2 (conflict x1 x2) ∧ ∃ k : Nat, (f = true → 0 < k) ∧ Al F.ours F.theirs c1 c2 k ∧ (conflict x1 x2).i0 = (c0 + k : Nat) ∧ (conflict x1 x2).i1 = (c1 + k : Nat) ∧
      (conflict x1 x2).i2 = (c2 + k : Nat) := by
  cases h1 with
  | @cons _ _ _ k1 _ _ a1 a2 a3 a4 a5 a6 =>
    cases h2 with
    | @cons _ _ _ k2 _ _ b1 b2 b3 b4 b5 b6 =>
      refine ⟨⟨rfl, a6, b6, t1, t2, ?_, ?_, ?_, ?_, ?_, ?_⟩, min k1 k2, ?_, ?_, ?_, ?_, ?_⟩
      all_goals (try (simp only [conflict]; (repeat' split) <;> omega))
      · intro hf; have := a1 hf; have := b1 hf; omega
      · exact (a2.sub (Nat.le_refl _) rfl (k' := min k1 k2) (by omega)).symm.trans (b2.sub (Nat.le_refl _) rfl (by omega))

theorem identical_ok {F : Files} {x1 x2 : Change} (b1 : x1.i2 + x1.chg2 ≤ F.ours.length) (b2 : x2.i2 + x2.chg2 ≤ F.theirs.length) :
    (identical F x1 x2 = .ok true ∧ x1.i1 = x2.i1 ∧ x1.chg1 = x2.chg1 ∧ x1.chg2 = x2.chg2 ∧ Al F.ours F.theirs x1.i2 x2.i2 x1.chg2) ∨
    (identical F x1 x2 = .ok false ∧ ¬ (x1.i1 = x2.i1 ∧ x1.chg1 = x2.chg1 ∧ x1.chg2 = x2.chg2 ∧ Al F.ours F.theirs x1.i2 x2.i2 x1.chg2)) := by
  unfold identical
  by_cases h : x1.i1 ≠ x2.i1 ∨ x1.chg1 ≠ x2.chg1 ∨ x1.chg2 ≠ x2.chg2
  · right; rw [if_pos h]; exact ⟨rfl, by omega⟩
  · have hc : x1.chg2 = x2.chg2 := by omega
    rw [if_neg h]
    unfold sameLines range
    rw [if_pos (by omega), Res.bind_ok, if_pos (by omega), Res.bind_ok]
    have ha := al_iff (X := F.ours) (Y := F.theirs) (i := x1.i2) (j := x2.i2) (k := x1.chg2) b1 (by omega)
    unfold slice at ha
    simp only [Int.toNat_natCast]
    by_cases he : List.take x1.chg2 (List.drop x1.i2 F.ours) = List.take x1.chg2 (List.drop x2.i2 F.theirs)
    · left; exact ⟨by simp [he], by omega, by omega, hc, ha.2 he⟩
    · right; exact ⟨by simp [he], fun h => he (ha.1 h.2.2.2)⟩

theorem hanging_succ {fuel : Nat} (ihc : CleanOk fuel) (ihh : HangingOk fuel) : HangingOk (fuel + 1) := by
  intro F x1 xs1 xs2 l hfuel h
  obtain ⟨a, b, ⟨p0, p0'⟩, ⟨p1, p1'⟩, e0, e1, d0, d2, q1, q2, r2, q3, q4, q5⟩ := h
  simp only [List.length_cons] at hfuel
  have grow : ∀ (m : M) (ys1 ys2 : List Change), m.i1 ≤ l.i1 + l.chg1 → Grown F (widen l m) (overlay F fuel ys1 ys2 (some (widen l m))) →
      Grown F l (overlay F fuel ys1 ys2 (some (push (some l) m).2) >>= fun ms => .ok ((push (some l) m).1 ++ ms)) := by
    intro m ys1 ys2 ht hg
    have hp : push (some l) m = ([], widen l m) := by
      simp only [push]; rw [if_pos]; simp [touches, ht]
    rw [hp]
    obtain ⟨l', ms, f0, f1, f2, g1, g2, g3, g4, g5, g6⟩ := hg
    exact ⟨l', ms, f0, f1, f2, by dsimp only; rw [g1]; rfl, g2, g3, g4, g5, g6⟩
  have wmode : ∀ m : M, (widen l m).mode = 0 := by intro m; simp only [widen]; split <;> simp_all
  cases xs2 with
  | nil =>
    simp only [overlay]
    apply grow
    · simp only [restFirst]; omega
    · cases r2 with
      | @nil _ _ _ k n1 n2 n3 =>
        have hb := b.bound
        refine grown_of_clean ihc (e0 := x1.i1 + x1.chg1) (e1 := x1.i2 + x1.chg2) (e2 := d2 + (x1.i1 + x1.chg1 - d0)) (by simp at hfuel ⊢; omega) (wmode _) ?_ ?_ ?_ ?_ ?_ ?_ b
          ((Rem.nil (f := true) n1 n2 n3).move_nil q2 (by omega) hb.1)
        all_goals (simp only [widen, restFirst]; omega)
  | cons x2 xs2 =>
    simp only [List.length_cons] at hfuel
    have hx : d0 < x2.i1 ∧ x2.i2 + d0 = d2 + x2.i1 ∧ x2.i2 + x2.chg2 ≤ F.theirs.length := by
      cases r2 with
      | cons n1 n2 n3 n4 n5 n6 => have := n1 rfl; have := n6.bound; omega
    simp only [overlay]
    by_cases h1 : x1.i1 + x1.chg1 < x2.i1
    · rw [if_pos h1]
      apply grow
      · simp only [first]; omega
      · refine grown_of_clean ihc (e0 := x1.i1 + x1.chg1) (e1 := x1.i2 + x1.chg2) (e2 := d2 + (x1.i1 + x1.chg1 - d0)) (by simp only [List.length_cons]; omega) (wmode _) ?_ ?_ ?_ ?_ ?_ ?_ b
          (r2.move q2 (by omega) h1)
        all_goals (simp only [widen, first]; omega)
    · rw [if_neg h1, if_neg (by omega)]
      have hid := identical_ok (F := F) (x1 := x1) (x2 := x2) (by have := b.bound; omega) hx.2.2
      rcases hid with ⟨_, hid, _⟩ | ⟨hid, _⟩
      · omega
      · rw [hid]
        simp only [Res.bind_ok, Bool.false_eq_true, if_false]
        apply grow
        · simp only [conflict]; (repeat' split) <;> omega
        · refine both_step ihc ihh ?_ (by simp only [List.length_cons]; omega)
          cases r2 with
          | cons n1 n2 n3 n4 n5 n6 =>
            refine ⟨wmode _, b, n6, by omega, by omega, ?_, ?_, ?_, ?_, ?_, ?_⟩
            all_goals (simp only [widen, conflict]; (repeat' split) <;> omega)

theorem clean_nil {F : Files} {f : Bool} {e0 e1 e2 : Nat} {last : Option M} (fuel : Nat) (h : Clean F f e0 e1 e2 [] [] last) :
    ∃ ms, overlay F fuel [] [] last = .ok (last.toList ++ ms) ∧ Laid F true f e0 e1 e2 ms ∧ (NoConflict ms ↔ Apart F [] []) := by
  obtain ⟨⟨c0, c1, c2, k, a, b, c, d, e, g⟩, hl⟩ := h
  refine ⟨[], by cases fuel <;> simp [overlay], ?_, by simp [NoConflict, Apart]⟩
  cases e with
  | nil i j m =>
    cases g with
    | nil i' j' m' =>
      refine Laid.nil (k := k + (F.base.length - c0)) (by omega) (by omega) (by omega) (d.append ((m.symm.trans (m'.sub (Nat.le_refl _) rfl (by omega))).sub (Nat.le_refl _) rfl (by omega)) b c)

/-- a change of the first side alone -/
theorem clean_first {F : Files} {fuel : Nat} (ih : CleanOk fuel) {f : Bool} {e0 e1 e2 : Nat} {x1 : Change} {xs1 ys2 : List Change} {last : Option M} {m : M}
    (hfuel : xs1.length + ys2.length ≤ fuel) (h : Clean F f e0 e1 e2 (x1 :: xs1) ys2 last) (hm : m.mode = 1) (hm0 : m.i0 = x1.i1) (hc0 : m.chg0 = x1.chg1) (hm1 : m.i1 = x1.i2) (hc1 : m.chg1 = x1.chg2)
    (hc2 : m.chg2 = x1.chg1) (hy : ∀ c0 c2 : Nat, Rem F.base F.theirs f c0 c2 ys2 → c0 ≤ x1.i1 → m.i2 = (c2 + (x1.i1 - c0) : Nat) ∧ Al F.base F.theirs c0 c2 (x1.i1 - c0 + x1.chg1) ∧ 
      Rem F.base F.theirs true (x1.i1 + x1.chg1) (c2 + (x1.i1 - c0) + x1.chg1) ys2) (hya : ∀ y ∈ ys2, x1.i1 + x1.chg1 < y.i1) :
    ∃ ms, (overlay F fuel xs1 ys2 (some (push last m).2) >>= fun ms => .ok ((push last m).1 ++ ms)) = .ok (last.toList ++ ms) ∧ Laid F true f e0 e1 e2 ms ∧ (NoConflict ms ↔ Apart F (x1 :: xs1) ys2) := by
  obtain ⟨⟨c0, c1, c2, k, a, b, c, d, e, g⟩, hl⟩ := h
  have hmode : (m.mode ≠ 0 ∧ Apart F xs1 ys2) ↔ Apart F xs1 ys2 := by rw [hm]; simp
  rw [apart_first hya, ← hmode]
  cases e with
  | @cons _ _ _ k1 _ _ n1 n2 n3 n4 n5 n6 =>
    obtain ⟨u1, u2, u3⟩ := hy c0 c2 g (by omega)
    refine clean_step ih hfuel hl (k := k + k1) (n0 := x1.i1) (nb := x1.chg1) (k1 := x1.chg2) (k2 := x1.chg1) (fun hf => by have := n1 hf; omega)
      (d.append (n2.symm.trans (u2.sub (Nat.le_refl _) rfl (by omega))) b c) (by omega) (by omega) (by omega) hc1 hc2 hm0 hc0 ?_ ?_ ?_
    · right; left
      exact ⟨hm, c2 + (x1.i1 - c0), x1.chg1, u1, hc2, rfl, (u2.symm.sub (by omega) (by omega) (by omega))⟩
    · rwa [show e1 + (k + k1) + x1.chg2 = x1.i2 + x1.chg2 by omega]
    · rwa [show e2 + (k + k1) + x1.chg1 = c2 + (x1.i1 - c0) + x1.chg1 by omega]

theorem clean_conflict {F : Files} {fuel : Nat} (ihc : CleanOk fuel) (ihh : HangingOk fuel) {f : Bool} {e0 e1 e2 : Nat} {x1 x2 : Change} {xs1 xs2 : List Change} {last : Option M}
    (hfuel : (x1 :: xs1).length + (x2 :: xs2).length ≤ fuel + 1) (h : Clean F f e0 e1 e2 (x1 :: xs1) (x2 :: xs2) last) (t1 : x2.i1 ≤ x1.i1 + x1.chg1) (t2 : x1.i1 ≤ x2.i1 + x2.chg1)
    (hid : identical F x1 x2 = .ok false) : ∃ ms, (overlay F fuel (advance x1 xs1 (x1.i1 + x1.chg1) (x2.i1 + x2.chg1)) (advance x2 xs2 (x2.i1 + x2.chg1) (x1.i1 + x1.chg1)) (some (push last (conflict x1 x2)).2) >>= fun ms =>
      .ok ((push last (conflict x1 x2)).1 ++ ms)) = .ok (last.toList ++ ms) ∧ Laid F true f e0 e1 e2 ms ∧ (NoConflict ms ↔ Apart F (x1 :: xs1) (x2 :: xs2)) := by
  obtain ⟨⟨c0, c1, c2, k, a, b, c, d, e, g⟩, hl⟩ := h
  obtain ⟨hb, k', u1, u2, u3, u4, u5⟩ := both_conflict e g t1 t2
  have hp : push last (conflict x1 x2) = (last.toList, conflict x1 x2) := push_apart (e1 := e1) (e2 := e2) (fun l h => (hl l h).2)
    (by intro h; cases last with
      | none => cases h
      | some l => have := u1 (hl l rfl).1; omega)
    (by intro h; cases last with
      | none => cases h
      | some l => have := u1 (hl l rfl).1; omega)
  rw [hp]
  dsimp only
  obtain ⟨l', ms, f0, f1, f2, g1, g2, g3, g4, g5, g6, g7, g8, g9, g10, g11, g12⟩ := both_step ihc ihh hb hfuel
  rw [g1, Res.bind_ok]
  refine ⟨l' :: ms, rfl, ?_, ?_⟩
  rotate_left
  · rw [noConflict_cons]
    constructor
    · intro h; exact absurd g2 h.1
    · intro h
      have := h x1 List.mem_cons_self x2 List.mem_cons_self
      rw [hid] at this
      simp at this
      omega
  refine .cons (k := k + k') (n0 := c0 + k') (nb := l'.chg0.toNat) (k1 := l'.chg1.toNat) (k2 := l'.chg2.toNat) (fun hf => by have := u1 hf; omega) (d.append u2 b c) (by omega) (by omega) (by omega) (by omega)
    (by omega) (fun _ => by omega) (.inl g2) ?_
  rwa [show c0 + k' + l'.chg0.toNat = f0 by omega, show e1 + (k + k') + l'.chg1.toNat = f1 by omega, show e2 + (k + k') + l'.chg2.toNat = f2 by omega]

/-- the first of two changes is before the second -/
theorem clean_succ {fuel : Nat} (ihc : CleanOk fuel) (ihh : HangingOk fuel) : CleanOk (fuel + 1) := by
  have one : ∀ (F : Files) (f : Bool) (e0 e1 e2 : Nat) (x1 : Change) (xs1 : List Change) (last : Option M), (x1 :: xs1).length ≤ fuel + 1 → Clean F f e0 e1 e2 (x1 :: xs1) [] last →
      ∃ ms, overlay F (fuel + 1) (x1 :: xs1) [] last = .ok (last.toList ++ ms) ∧ Laid F true f e0 e1 e2 ms ∧ (NoConflict ms ↔ Apart F (x1 :: xs1) []) := by
    intro F f e0 e1 e2 x1 xs1 last hfuel h
    simp only [List.length_cons] at hfuel
    simp only [overlay]
    have hx : x1.i1 + x1.chg1 ≤ F.base.length := by
      obtain ⟨⟨c0, c1, c2, k, a, b, c, d, e, g⟩, hl⟩ := h
      cases e with
      | cons n1 n2 n3 n4 n5 n6 => exact n6.bound.1
    refine clean_first ihc (by simp only [List.length_nil]; omega) h rfl rfl rfl rfl rfl rfl ?_ (fun y hy => nomatch hy)
    intro c0 c2 hr hc
    cases hr with
    | nil i j m =>
      exact ⟨by simp only [restFirst]; omega, m.sub (Nat.le_refl _) rfl (by omega), (Rem.nil (f := f) i j m).move_nil (by omega) (by omega) hx⟩
  have two : ∀ (F : Files) (f : Bool) (e0 e1 e2 : Nat) (x1 x2 : Change) (xs1 xs2 : List Change) (last : Option M), (x1 :: xs1).length + (x2 :: xs2).length ≤ fuel + 1 → x1.i1 + x1.chg1 < x2.i1 →
      Clean F f e0 e1 e2 (x1 :: xs1) (x2 :: xs2) last → ∃ ms, overlay F (fuel + 1) (x1 :: xs1) (x2 :: xs2) last = .ok (last.toList ++ ms) ∧ Laid F true f e0 e1 e2 ms ∧
        (NoConflict ms ↔ Apart F (x1 :: xs1) (x2 :: xs2)) := by
    intro F f e0 e1 e2 x1 x2 xs1 xs2 last hfuel hlt h
    simp only [List.length_cons] at hfuel
    simp only [overlay]
    rw [if_pos hlt]
    have haft : ∀ y ∈ x2 :: xs2, x1.i1 + x1.chg1 < y.i1 := by
      obtain ⟨⟨c0, c1, c2, k, a, b, c, d, e, g⟩, hl⟩ := h
      cases g with
      | cons n1 n2 n3 n4 n5 n6 =>
        intro y hy
        rcases List.mem_cons.1 hy with rfl | hy
        · exact hlt
        · have := (n6.after y hy).1; omega
    refine clean_first ihc (by simp only [List.length_cons]; omega) h rfl rfl rfl rfl rfl rfl ?_ haft
    intro c0 c2 hr hc
    refine ⟨?_, ?_, hr.move (by omega) (by omega) hlt⟩
    · cases hr with
      | cons n1 n2 n3 n4 n5 n6 => simp only [first]; omega
    · cases hr with
      | cons n1 n2 n3 n4 n5 n6 => exact n2.sub (Nat.le_refl _) rfl (by omega)
  have back : ∀ (F : Files) (f : Bool) (e0 e1 e2 : Nat) (xs1 xs2 : List Change) (last : Option M),
      (∃ ms, overlay (swapF F) (fuel + 1) xs2 xs1 (last.map swapM) = .ok ((last.map swapM).toList ++ ms) ∧ Laid (swapF F) true f e0 e2 e1 ms ∧ (NoConflict ms ↔ Apart (swapF F) xs2 xs1)) →
      ∃ ms, overlay F (fuel + 1) xs1 xs2 last = .ok (last.toList ++ ms) ∧ Laid F true f e0 e1 e2 ms ∧ (NoConflict ms ↔ Apart F xs1 xs2) := by
    intro F f e0 e1 e2 xs1 xs2 last ⟨ms, h, hl, hno⟩
    refine ⟨ms.map swapM, ?_, hl.swap, by rw [noConflict_swap, hno, apart_swap]⟩
    rw [overlay_swap] at h
    unfold swapR at h
    cases ho : overlay F (fuel + 1) xs1 xs2 last with
    | ok r =>
      rw [ho, Res.bind_ok] at h
      have h := Res.ok.inj h
      have h2 := congrArg (List.map swapM) h
      rw [List.map_map, List.map_append] at h2
      have e : swapM ∘ swapM = id := by funext m; exact swapM_swap m
      rw [e, List.map_id] at h2
      rw [h2]
      cases last <;> simp [swapM_swap]
    | _ => rw [ho] at h; cases h
  intro F f e0 e1 e2 xs1 xs2 last hfuel h
  cases xs1 with
  | nil =>
    cases xs2 with
    | nil => exact clean_nil _ h
    | cons x2 xs2 => exact back _ _ _ _ _ _ _ _ (one _ _ _ _ _ _ _ _ (by simpa using hfuel) h.swap)
  | cons x1 xs1 =>
    cases xs2 with
    | nil => exact one _ _ _ _ _ _ _ _ (by simpa using hfuel) h
    | cons x2 xs2 =>
      by_cases h1 : x1.i1 + x1.chg1 < x2.i1
      · exact two _ _ _ _ _ _ _ _ _ _ hfuel h1 h
      · by_cases h2 : x2.i1 + x2.chg1 < x1.i1
        · exact back _ _ _ _ _ _ _ _ (two _ _ _ _ _ _ _ _ _ _ (by omega) h2 h.swap)
        · simp only [overlay]
          rw [if_neg h1, if_neg h2]
          obtain ⟨⟨c0, c1, c2, k, a, b, c, d, e, g⟩, hl⟩ := h
          have e' := e
          have g' := g
          cases e with
          | @cons _ _ _ k1 _ _ n1 n2 n3 n4 n5 n6 =>
            cases g with
            | @cons _ _ _ k2 _ _ o1 o2 o3 o4 o5 o6 =>
              rcases identical_ok (F := F) (x1 := x1) (x2 := x2) n6.bound.2 o6.bound.2 with ⟨hid, i1, i2, i3, i4⟩ | ⟨hid, _⟩
              · rw [hid, Res.bind_ok, if_pos rfl]
                unfold advance
                rw [if_pos (by omega), if_pos (by omega)]
                simp only [List.length_cons] at hfuel
                have hk : k1 = k2 := by omega
                subst hk
                have hal := (d.append (n2.symm.trans o2) b c).append i4 (by omega) (by omega)
                obtain ⟨ms, h1, h2, h3⟩ := ihc F true e0 e1 e2 xs1 xs2 last (by omega) ⟨⟨x1.i1 + x1.chg1, x1.i2 + x1.chg2, x2.i2 + x2.chg2, k + k1 + x1.chg2, by omega, by omega, by omega, hal, n6,
                  by rw [i1, i2]; exact o6⟩, fun l hh => ⟨rfl, (hl l hh).2⟩⟩
                exact ⟨ms, h1, h2.back (Nat.le_refl _) (k := 0) rfl rfl (Al.zero h2.bound.2.1 h2.bound.2.2) (fun _ => .inl rfl),
                  by rw [h3, apart_same hid i1.symm i2.symm (fun x hx => (n6.after x hx).2 rfl) (fun x hx => (o6.after x hx).2 rfl)]⟩
              · rw [hid, Res.bind_ok, if_neg (by simp)]
                exact clean_conflict ihc ihh hfuel ⟨⟨c0, c1, c2, k, a, b, c, d, e', g'⟩, hl⟩ (by omega) (by omega) hid

theorem overlay_ok : ∀ fuel, CleanOk fuel ∧ HangingOk fuel := by
  intro fuel
  induction fuel with
  | zero =>
    constructor
    · intro F f e0 e1 e2 xs1 xs2 last hfuel h
      cases xs1 with
      | cons => simp at hfuel
      | nil =>
        cases xs2 with
        | cons => simp at hfuel
        | nil => exact clean_nil _ h
    · intro F x1 xs1 xs2 l hfuel h
      simp at hfuel
  | succ fuel ih => exact ⟨clean_succ ih.1 ih.2, hanging_succ ih.1 ih.2⟩

/-- The regions of two scripts. -/
theorem overlay_laid {F : Files} {xs1 xs2 : List Change} (h1 : Rem F.base F.ours false 0 0 xs1) (h2 : Rem F.base F.theirs false 0 0 xs2) :
    ∃ ms, overlay F (xs1.length + xs2.length) xs1 xs2 none = .ok ms ∧ Laid F true false 0 0 0 ms ∧ (NoConflict ms ↔ Apart F xs1 xs2) := by
  obtain ⟨ms, a, b⟩ := (overlay_ok (xs1.length + xs2.length)).1 F false 0 0 0 xs1 xs2 none (Nat.le_refl _)
    ⟨⟨0, 0, 0, 0, Nat.le_refl _, rfl, rfl, Al.zero (Nat.zero_le _) (Nat.zero_le _), h1, h2⟩, by intro l h; cases h⟩
  exact ⟨ms, by simpa using a, b⟩

end Verif.MergeFile
