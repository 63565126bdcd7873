import Verif.RefName.Model
import Verif.RefName.Spec
namespace Verif.RefName
open Spec

/-! ### components -/

theorem components_one {k : Bytes} (h : c!"/" ∉ k) : components k = [k] := by
  induction k with
  | nil => rfl
  | cons c k ih =>
    have h1 : c ≠ c!"/" := fun e => h (e ▸ List.mem_cons_self)
    have h2 : c!"/" ∉ k := fun e => h (List.mem_cons_of_mem _ e)
    simp only [components, h1, if_false, ih h2]

theorem components_more {k : Bytes} (h : c!"/" ∉ k) (r : Bytes) : components (k ++ c!"/" :: r) = k :: components r := by
  induction k with
  | nil => simp [components]
  | cons c k ih =>
    have h1 : c ≠ c!"/" := fun e => h (e ▸ List.mem_cons_self)
    have h2 : c!"/" ∉ k := fun e => h (List.mem_cons_of_mem _ e)
    simp only [List.cons_append, components, h1, if_false, ih h2]

theorem comp_cases (cur : Bytes) : c!"/" ∉ cur ∨ ∃ k r, cur = k ++ c!"/" :: r ∧ c!"/" ∉ k := by
  by_cases h : c!"/" ∈ cur
  · right
    induction cur with
    | nil => cases h
    | cons c cs ih =>
      by_cases hc : c = c!"/"
      · exact ⟨[], cs, by rw [hc]; rfl, by simp⟩
      · obtain ⟨k, r, h1, h2⟩ := ih ((List.mem_cons.mp h).resolve_left (fun e => hc e.symm))
        refine ⟨c :: k, r, by rw [h1]; rfl, ?_⟩
        intro e
        rcases List.mem_cons.mp e with e | e
        · exact hc e.symm
        · exact h2 e
  · exact .inl h

theorem comp_induction {P : Bytes → Prop} (one : ∀ k, c!"/" ∉ k → P k) (more : ∀ k r, c!"/" ∉ k → P r → P (k ++ c!"/" :: r)) (cur : Bytes) : P cur := by
  have : ∀ n, ∀ cur : Bytes, cur.length ≤ n → P cur := by
    intro n
    induction n with
    | zero =>
      intro cur h
      have : cur = [] := List.length_eq_zero_iff.mp (by omega)
      exact one _ (by simp [this])
    | succ n ih =>
      intro cur h
      rcases comp_cases cur with h1 | ⟨k, r, rfl, h2⟩
      · exact one _ h1
      · refine more k r h2 (ih r ?_)
        simp only [List.length_append, List.length_cons] at h
        omega
  exact this _ cur (Nat.le_refl _)

/-! ### occurrence -/

theorem occurs2_nil (x y : UInt8) : ¬ Occurs [x, y] [] := by
  rintro ⟨a, b, h⟩
  simp at h

theorem occurs2_cons (x y c : UInt8) (s : Bytes) : Occurs [x, y] (c :: s) ↔ (c = x ∧ s.head? = some y) ∨ Occurs [x, y] s := by
  constructor
  · rintro ⟨a, b, h⟩
    cases a with
    | nil =>
      simp only [List.nil_append, List.cons_append, List.cons.injEq] at h
      exact .inl ⟨h.1, by rw [h.2]; rfl⟩
    | cons d a =>
      simp only [List.cons_append, List.cons.injEq] at h
      exact .inr ⟨a, b, by simpa using h.2⟩
  · rintro (⟨rfl, h⟩ | ⟨a, b, h⟩)
    · cases s with
      | nil => simp at h
      | cons d s =>
        simp only [List.head?_cons, Option.some.injEq] at h
        exact ⟨[], s, by rw [h]; rfl⟩
    · exact ⟨c :: a, b, by rw [h]; simp⟩

theorem occurs_split {x y : UInt8} (hx : x ≠ c!"/") (hy : y ≠ c!"/") (k r : Bytes) :
    Occurs [x, y] (k ++ c!"/" :: r) ↔ Occurs [x, y] k ∨ Occurs [x, y] r := by
  induction k with
  | nil =>
    rw [List.nil_append, occurs2_cons]
    simp [Ne.symm hx, occurs2_nil]
  | cons c k ih =>
    rw [List.cons_append, occurs2_cons, occurs2_cons, ih]
    have : (k ++ c!"/" :: r).head? = some y ↔ k.head? = some y := by
      cases k with
      | nil => simp [Ne.symm hy]
      | cons d k => simp
    rw [this, or_assoc]

/-! ### one segment -/

def SegOk (prev : UInt8) (glob : Bool) (seg : Bytes) : Prop :=
  (∀ c ∈ seg, isValidRefChar c = true) ∧ ¬ Occurs [c!".", c!"."] (prev :: seg) ∧ ¬ Occurs [c!"@", c!"{"] (prev :: seg) ∧
    seg.count c!"*" ≤ if glob then 1 else 0

theorem segOk_cons {prev : UInt8} {glob : Bool} {c : UInt8} {seg : Bytes} :
    SegOk prev glob (c :: seg) ↔ isValidRefChar c = true ∧ ¬ (prev = c!"." ∧ c = c!".") ∧ ¬ (prev = c!"@" ∧ c = c!"{") ∧
      (c = c!"*" → glob = true) ∧ SegOk c (if c = c!"*" then false else glob) seg := by
  unfold SegOk
  rw [occurs2_cons _ _ prev, occurs2_cons _ _ prev]
  simp only [List.mem_cons, forall_eq_or_imp, List.head?_cons, Option.some.injEq, not_or, List.count_cons, beq_iff_eq]
  constructor
  · rintro ⟨⟨h1, h2⟩, ⟨h3, h4⟩, ⟨h5, h6⟩, h7⟩
    refine ⟨h1, h3, h5, ?_, h2, h4, h6, ?_⟩
    · intro e
      simp only [e, if_true] at h7
      cases glob
      · simp at h7
      · rfl
    · split
      · rename_i e
        simp only [e, if_true] at h7
        simp only [if_false, Bool.false_eq_true]
        split at h7 <;> omega
      · rename_i e
        simpa [e] using h7
  · rintro ⟨h1, h3, h5, h8, h2, h4, h6, h7⟩
    refine ⟨⟨h1, h2⟩, ⟨h3, h4⟩, ⟨h5, h6⟩, ?_⟩
    by_cases e : c = c!"*"
    · simp only [e, if_true, if_false, Bool.false_eq_true] at h7 ⊢
      simp only [h8 e, if_true]
      omega
    · simpa [e] using h7

open Classical in
theorem segLoop_iff (seg : Bytes) (hs : c!"/" ∉ seg) (tail : Bytes) (ht : tail = [] ∨ ∃ r, tail = c!"/" :: r) (prev : UInt8) (glob : Bool) :
    segLoop (seg ++ tail) prev glob = if SegOk prev glob seg then some seg.length else none := by
  induction seg generalizing prev glob with
  | nil =>
    have : SegOk prev glob [] := by
      refine ⟨by simp, ?_, ?_, by simp⟩ <;> rw [occurs2_cons] <;> simp [occurs2_nil]
    rw [if_pos this]
    rcases ht with rfl | ⟨r, rfl⟩
    · rfl
    · simp [segLoop]
  | cons c seg ih =>
    have h1 : c ≠ c!"/" := fun e => hs (e ▸ List.mem_cons_self)
    have h2 : c!"/" ∉ seg := fun e => hs (List.mem_cons_of_mem _ e)
    rw [List.cons_append]
    unfold segLoop
    rw [if_neg h1]
    by_cases hv : isValidRefChar c = true
    case neg => rw [if_pos (by simpa using hv), if_neg (fun h => hv (segOk_cons.mp h).1)]
    rw [if_neg (by simpa using hv)]
    by_cases hd : prev = c!"." ∧ c = c!"."
    · rw [if_pos (by simpa using hd), if_neg (fun h => (segOk_cons.mp h).2.1 hd)]
    rw [if_neg (by simpa using hd)]
    by_cases ha : prev = c!"@" ∧ c = c!"{"
    · rw [if_pos (by simpa using ha), if_neg (fun h => (segOk_cons.mp h).2.2.1 ha)]
    rw [if_neg (by simpa using ha)]
    by_cases hst : c = c!"*"
    · rw [if_pos hst]
      by_cases hg : glob = true
      · rw [if_neg (by simpa using hg), ih h2]
        by_cases hk : SegOk c false seg
        · rw [if_pos hk, if_pos (segOk_cons.mpr ⟨hv, hd, ha, fun _ => hg, by rw [if_pos hst]; exact hk⟩)]; rfl
        · rw [if_neg hk, if_neg (fun h => hk (by have := (segOk_cons.mp h).2.2.2.2; rwa [if_pos hst] at this))]; rfl
      · rw [if_pos (by simpa using hg), if_neg (fun h => hg ((segOk_cons.mp h).2.2.2.1 hst))]
    · rw [if_neg hst, ih h2]
      by_cases hk : SegOk c glob seg
      · rw [if_pos hk, if_pos (segOk_cons.mpr ⟨hv, hd, ha, fun e => absurd e hst, by rw [if_neg hst]; exact hk⟩)]; rfl
      · rw [if_neg hk, if_neg (fun h => hk (by have := (segOk_cons.mp h).2.2.2.2; rwa [if_neg hst] at this))]; rfl

/-- what is asked of one component -/
def CompOk (glob caret : Bool) (k : Bytes) : Prop :=
  k.head? ≠ some c!"." ∧ (∀ c ∈ (if caret then uncaret k else k), Plain c) ∧ ¬ Occurs [c!".", c!"."] k ∧ ¬ Occurs [c!"@", c!"{"] k ∧
    k.count c!"*" ≤ (if glob then 1 else 0) ∧ ¬ ∃ a, k = a ++ b!".lock"

theorem plain_iff : ∀ c, isValidRefChar c = true ↔ Plain c := by unfold Plain isValidRefChar; decide +kernel

theorem occurs2_skip {x y c : UInt8} (h : c ≠ x) (s : Bytes) : Occurs [x, y] (c :: s) ↔ Occurs [x, y] s := by
  rw [occurs2_cons]; simp [h]

theorem segOk_zero {glob : Bool} {k : Bytes} : SegOk 0 glob k ↔ (∀ c ∈ k, Plain c) ∧ ¬ Occurs [c!".", c!"."] k ∧ ¬ Occurs [c!"@", c!"{"] k ∧
    k.count c!"*" ≤ (if glob then 1 else 0) := by
  unfold SegOk
  rw [occurs2_skip (by decide), occurs2_skip (by decide)]
  simp only [plain_iff]

theorem lock_iff {k tail : Bytes} : (lockExt.length ≤ k.length ∧ ((k ++ tail).take k.length).drop (k.length - lockExt.length) = lockExt) ↔
    ∃ a, k = a ++ b!".lock" := by
  rw [List.take_left]
  constructor
  · rintro ⟨h1, h2⟩
    exact ⟨k.take (k.length - lockExt.length), by
      have := List.take_append_drop (k.length - lockExt.length) k
      rw [h2] at this
      exact this.symm⟩
  · rintro ⟨a, rfl⟩
    refine ⟨by simp [lockExt], ?_⟩
    rw [List.length_append, show (b!".lock").length = lockExt.length from rfl, Nat.add_sub_cancel, List.drop_left]
    rfl

open Classical in
theorem ensureSeg_eq (k : Bytes) (hs : c!"/" ∉ k) (tail : Bytes) (ht : tail = [] ∨ ∃ r, tail = c!"/" :: r) (glob caret : Bool) :
    ensureSegmentValidity (k ++ tail) glob caret = if CompOk glob caret k then some k.length else none := by
  have hhead : ∀ x, x ≠ c!"/" → ((k ++ tail).head? = some x ↔ k.head? = some x) := by
    intro x hx
    cases k with
    | cons c k => simp
    | nil =>
      rcases ht with rfl | ⟨r, rfl⟩
      · simp
      · simp [Ne.symm hx]
  unfold ensureSegmentValidity
  by_cases hdot : k.head? = some c!"."
  · rw [if_pos ((hhead _ (by decide)).mpr hdot), if_neg (fun h => h.1 hdot)]
  rw [if_neg (fun h => hdot ((hhead _ (by decide)).mp h))]
  simp only [hhead _ (show c!"^" ≠ c!"/" by decide)]
  by_cases hc : caret = true ∧ k.head? = some c!"^"
  · obtain ⟨rfl, hc⟩ := hc
    obtain ⟨c, k', rfl⟩ : ∃ c k', k = c :: k' := by
      cases k with
      | nil => simp at hc
      | cons c k' => exact ⟨c, k', rfl⟩
    simp only [List.head?_cons, Option.some.injEq] at hc
    subst hc
    have h2 : c!"/" ∉ k' := fun e => hs (List.mem_cons_of_mem _ e)
    simp only [List.head?_cons, decide_true, Bool.and_true, if_true, List.cons_append, List.drop_succ_cons, List.drop_zero]
    rw [segLoop_iff k' h2 tail ht]
    have key : CompOk glob true (c!"^" :: k') ↔ SegOk 0 glob k' ∧ ¬ ∃ a, (c!"^" :: k') = a ++ b!".lock" := by
      unfold CompOk
      rw [segOk_zero, occurs2_skip (by decide), occurs2_skip (by decide)]
      simp only [List.head?_cons, if_true, uncaret]
      have : List.count c!"*" (c!"^" :: k') = List.count c!"*" k' := by simp [List.count_cons]
      rw [this]
      constructor
      · rintro ⟨_, h1, h2, h3, h4, h5⟩; exact ⟨⟨h1, h2, h3, h4⟩, h5⟩
      · rintro ⟨⟨h1, h2, h3, h4⟩, h5⟩; exact ⟨by decide, h1, h2, h3, h4, h5⟩
    by_cases hk : SegOk 0 glob k'
    · rw [if_pos hk]
      have hl := lock_iff (k := c!"^" :: k') (tail := tail)
      rw [List.length_cons, List.cons_append] at hl
      simp only [show 1 + k'.length = k'.length + 1 by omega, List.length_cons]
      by_cases hlock : ∃ a, (c!"^" :: k') = a ++ b!".lock"
      · rw [if_pos (by simpa using hl.mpr hlock), if_neg (fun h => (key.mp h).2 hlock)]
      · rw [if_neg (by simpa using fun a b => hlock (hl.mp ⟨a, b⟩)), if_pos (key.mpr ⟨hk, hlock⟩)]
    · rw [if_neg hk, if_neg (fun h => hk (key.mp h).1)]
  · have hskip : (if (caret && decide (k.head? = some c!"^")) = true then 1 else 0) = 0 := if_neg (by simpa using hc)
    simp only [hskip, List.drop_zero, Nat.zero_add]
    rw [segLoop_iff k hs tail ht]
    have key : CompOk glob caret k ↔ SegOk 0 glob k ∧ ¬ ∃ a, k = a ++ b!".lock" := by
      unfold CompOk
      have : (if caret = true then uncaret k else k) = k := by
        split
        · rename_i e
          cases k with
          | nil => rfl
          | cons c k =>
            show (if c = c!"^" then k else c :: k) = c :: k
            exact if_neg (fun e' => hc ⟨e, by rw [e']; rfl⟩)
        · rfl
      rw [this, segOk_zero]
      constructor
      · rintro ⟨_, h1, h2, h3, h4, h5⟩; exact ⟨⟨h1, h2, h3, h4⟩, h5⟩
      · rintro ⟨⟨h1, h2, h3, h4⟩, h5⟩; exact ⟨hdot, h1, h2, h3, h4, h5⟩
    by_cases hk : SegOk 0 glob k
    · rw [if_pos hk]
      have hl := lock_iff (k := k) (tail := tail)
      by_cases hlock : ∃ a, k = a ++ b!".lock"
      · rw [if_neg (fun h => (key.mp h).2 hlock)]
        simp only []
        rw [if_pos (by simpa using hl.mpr hlock)]
      · rw [if_pos (key.mpr ⟨hk, hlock⟩)]
        simp only []
        rw [if_neg (by simpa using fun a b => hlock (hl.mp ⟨a, b⟩))]
    · rw [if_neg hk, if_neg (fun h => hk (key.mp h).1)]

end Verif.RefName
