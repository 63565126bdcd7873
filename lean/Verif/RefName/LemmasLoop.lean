import Verif.RefName.Lemmas
namespace Verif.RefName
open Spec

/-- what the loop asks of the components -/
def Segs (norm : Bool) : Bool → Bool → List Bytes → Prop
  | _, _, [] => True
  | pat, caret, k :: ks => CompOk pat caret k ∧ (norm = true ∨ k ≠ []) ∧ Segs norm (if c!"*" ∈ k then false else pat) false ks

/-- a component is appended to the buffer -/
def addComp (buf k : Bytes) : Bytes := if k = [] then buf else if buf = [] then k else buf ++ c!"/" :: k

/-- the last component -/
def lastComp (cur : Bytes) : Bytes := (components cur).getLast?.getD []

/-- the number of non-empty components -/
def cnt (ks : List Bytes) : Nat := ks.countP (fun k => !k.isEmpty)

theorem lastComp_one {k : Bytes} (h : c!"/" ∉ k) : lastComp k = k := by rw [lastComp, components_one h]; rfl

theorem components_ne (cur : Bytes) : components cur ≠ [] := by
  induction cur using comp_induction with
  | one k h => rw [components_one h]; simp
  | more k r h ih => rw [components_more h]; simp

theorem lastComp_more {k : Bytes} (h : c!"/" ∉ k) (r : Bytes) : lastComp (k ++ c!"/" :: r) = lastComp r := by
  rw [lastComp, components_more h, lastComp, List.getLast?_cons]
  cases hr : (components r).getLast? with
  | none => exact absurd (List.getLast?_eq_none_iff.mp hr) (components_ne r)
  | some x => rfl

theorem joinpath_eq {buf k tail : Bytes} {count : Nat} (hk : k ≠ []) (hs : c!"/" ∉ k) (h0 : buf = [] ↔ count = 0) (hl : buf.getLast? ≠ some c!"/") :
    (joinpath buf (k ++ tail)).take (buf.length + k.length + (if count = 0 then 0 else 1)) = addComp buf k := by
  obtain ⟨c, k', rfl⟩ : ∃ c k', k = c :: k' := by
    cases k with
    | nil => exact absurd rfl hk
    | cons c k' => exact ⟨c, k', rfl⟩
  have hc : c ≠ c!"/" := fun e => hs (e ▸ List.mem_cons_self)
  unfold joinpath addComp
  rw [if_neg hk]
  by_cases hb : buf = []
  · rw [if_pos hb, if_pos hb, if_pos (h0.mp hb), hb]
    simp
  · rw [if_neg hb, if_neg hb, if_neg (fun e => hb (h0.mpr e))]
    have : ((c :: k') ++ tail).dropWhile (· == c!"/") = (c :: k') ++ tail := by
      rw [List.cons_append, List.dropWhile_cons, if_neg (by simpa using hc)]
    simp only [this, ne_eq, hl, not_false_eq_true, if_true]
    have : buf ++ [c!"/"] ++ ((c :: k') ++ tail) = (buf ++ c!"/" :: (c :: k')) ++ tail := by simp
    rw [this]
    have : buf.length + (c :: k').length + 1 = (buf ++ c!"/" :: (c :: k')).length := by
      simp only [List.length_append, List.length_cons]; omega
    rw [this, List.take_left]

theorem addComp_inv {buf k : Bytes} {count : Nat} (hk : k ≠ []) (hs : c!"/" ∉ k) :
    (addComp buf k = [] ↔ count + 1 = 0) ∧ (addComp buf k).getLast? ≠ some c!"/" := by
  unfold addComp
  rw [if_neg hk]
  have hlast : k.getLast? ≠ some c!"/" := fun e => hs (List.mem_of_getLast? e)
  by_cases hb : buf = []
  · rw [if_pos hb]; exact ⟨by simp [hk], hlast⟩
  · rw [if_neg hb]
    refine ⟨by simp, ?_⟩
    rw [List.getLast?_append, List.getLast?_cons]
    cases h : k.getLast? with
    | none => exact absurd (List.getLast?_eq_none_iff.mp h) hk
    | some x => rw [h] at hlast; simpa using hlast

open Classical in
theorem loop_eq (norm : Bool) (cur : Bytes) (before : Option UInt8) (pat caret : Bool) (buf : Bytes) (count : Nat)
    (h0 : norm = true → (buf = [] ↔ count = 0)) (hl : norm = true → buf.getLast? ≠ some c!"/") :
    loop norm cur before pat caret buf count = if Segs norm pat caret (components cur) then
      some ⟨lastComp cur, if c!"/" ∈ cur then some c!"/" else before, (lastComp cur).length, count + cnt (components cur),
        if norm then (components cur).foldl addComp buf else buf⟩ else none := by
  induction cur using comp_induction generalizing before pat caret buf count with
  | one k h =>
    have hE := ensureSeg_eq k h [] (.inl rfl) pat caret
    rw [List.append_nil] at hE
    rw [components_one h, lastComp_one h, if_neg h]
    simp only [Segs, and_true, cnt]
    by_cases hc : CompOk pat caret k
    · rw [if_pos hc] at hE
      rw [loop, hE]
      simp only [Nat.le_refl, dif_pos, List.foldl_cons, List.foldl_nil]
      by_cases hk : k = []
      · subst hk
        cases norm
        · simp
        · simp [hc, addComp]
      · have hlen : 0 < k.length := List.length_pos_iff.mpr hk
        have hlen' : ¬ k.length = 0 := by omega
        simp only [hlen, hlen', decide_true, decide_false, Bool.false_and, Bool.false_eq_true, if_false, Bool.true_and, if_true]
        have hS : CompOk pat caret k ∧ (norm = true ∨ k ≠ []) := ⟨hc, .inr hk⟩
        rw [if_pos hS]
        have hcnt : List.countP (fun k => !List.isEmpty k) [k] = 1 := by simp [hk]
        rw [hcnt]
        cases norm
        · simp
        · have := joinpath_eq (buf := buf) (tail := []) (count := count) hk h (h0 rfl) (hl rfl)
          rw [List.append_nil] at this
          simp only [if_true, this]
    · rw [if_neg hc] at hE
      rw [loop, hE]
      exact (if_neg (c := CompOk pat caret k ∧ (norm = true ∨ k ≠ [])) (fun e => hc e.1)).symm
  | more k r h ih =>
    have hE := ensureSeg_eq k h (c!"/" :: r) (.inr ⟨r, rfl⟩) pat caret
    have hmem : c!"/" ∈ k ++ c!"/" :: r := by simp
    rw [components_more h, lastComp_more h, if_pos hmem]
    simp only [Segs, cnt, List.countP_cons]
    by_cases hc : CompOk pat caret k
    · rw [if_pos hc] at hE
      rw [loop, hE]
      have hlt : ¬ (k ++ c!"/" :: r).length ≤ k.length := by simp
      have hget : (k ++ c!"/" :: r)[k.length]? = some c!"/" := by simp
      have hdrop : (k ++ c!"/" :: r).drop (k.length + 1) = r := by
        rw [show k.length + 1 = (k ++ [c!"/"]).length by simp, show k ++ c!"/" :: r = (k ++ [c!"/"]) ++ r by simp, List.drop_left]
      have htake : (k ++ c!"/" :: r).take k.length = k := List.take_left
      simp only [dif_neg hlt, hget, hdrop, htake, List.foldl_cons]
      have hbefore : (if c!"/" ∈ r then some c!"/" else some c!"/") = some c!"/" := by split <;> rfl
      by_cases hk : k = []
      · subst hk
        cases norm
        · simp
        · simp only [List.length_nil, Nat.lt_irrefl, decide_false, Bool.false_and, Bool.false_eq_true, if_false, decide_true, Bool.not_true, Bool.and_false,
            List.not_mem_nil, List.isEmpty_nil]
          rw [ih (before := some c!"/") (h0 := h0) (hl := hl), hbefore]
          simp only [hc, true_and, true_or, addComp, if_true, cnt]
          rfl
      · have hlen : 0 < k.length := List.length_pos_iff.mpr hk
        have hlen' : ¬ k.length = 0 := by omega
        have hemp : k.isEmpty = false := by simpa using hk
        simp only [hlen, hlen', decide_true, decide_false, Bool.false_and, Bool.false_eq_true, if_false, Bool.true_and, if_true, List.contains_iff_mem, hemp,
          Bool.not_false]
        cases norm
        · simp only [Bool.false_eq_true, if_false]
          rw [ih (before := some c!"/") (h0 := fun e => by cases e) (hl := fun e => by cases e), hbefore]
          simp only [hc, true_and, hk, Bool.false_eq_true, false_or, ne_eq, not_false_eq_true, cnt, if_false]
          rw [show count + 1 + List.countP (fun k => !k.isEmpty) (components r) = count + (List.countP (fun k => !k.isEmpty) (components r) + 1) by omega]
        · simp only [if_true]
          rw [joinpath_eq hk h (h0 rfl) (hl rfl)]
          have := addComp_inv (buf := buf) (count := count) hk h
          rw [ih (before := some c!"/") (h0 := fun _ => this.1) (hl := fun _ => this.2), hbefore]
          simp only [hc, true_and, true_or, if_true, cnt]
          rw [show count + 1 + List.countP (fun k => !k.isEmpty) (components r) = count + (List.countP (fun k => !k.isEmpty) (components r) + 1) by omega]
    · rw [if_neg hc] at hE
      rw [loop, hE]
      exact (if_neg (fun e => hc e.1)).symm

/-! ### the components and the whole name -/

theorem count_components (name : Bytes) : name.count c!"*" = ((components name).map (·.count c!"*")).sum := by
  induction name using comp_induction with
  | one k h => rw [components_one h]; simp
  | more k r h ih => rw [components_more h, List.count_append, List.count_cons, ih]; simp

theorem segs_iff (norm pat : Bool) (ks : List Bytes) : Segs norm pat false ks ↔
    (∀ k ∈ ks, k.head? ≠ some c!"." ∧ (∀ c ∈ k, Plain c) ∧ ¬ Occurs [c!".", c!"."] k ∧ ¬ Occurs [c!"@", c!"{"] k ∧ (¬ ∃ a, k = a ++ b!".lock") ∧
      (norm = true ∨ k ≠ [])) ∧ (ks.map (·.count c!"*")).sum ≤ if pat then 1 else 0 := by
  induction ks generalizing pat with
  | nil => simp [Segs]
  | cons k ks ih =>
    simp only [Segs, CompOk, Bool.false_eq_true, if_false, List.mem_cons, forall_eq_or_imp, List.map_cons, List.sum_cons, ih]
    constructor
    · rintro ⟨⟨h1, h2, h3, h4, h5, h6⟩, h7, h8, h9⟩
      refine ⟨⟨⟨h1, h2, h3, h4, h6, h7⟩, h8⟩, ?_⟩
      split at h9
      · simp only [Bool.false_eq_true, if_false] at h9; omega
      · rename_i hn; rw [List.count_eq_zero.mpr hn]; omega
    · rintro ⟨⟨⟨h1, h2, h3, h4, h6, h7⟩, h8⟩, h9⟩
      refine ⟨⟨h1, h2, h3, h4, by omega, h6⟩, h7, h8, ?_⟩
      split
      · rename_i hn
        have := List.count_pos_iff.mpr hn
        simp only [Bool.false_eq_true, if_false]
        split at h9 <;> omega
      · omega

theorem segs_first (norm pat : Bool) (k : Bytes) (ks : List Bytes) : Segs norm pat true (k :: ks) ↔
    (∀ k' ∈ k :: ks, k'.head? ≠ some c!"." ∧ ¬ Occurs [c!".", c!"."] k' ∧ ¬ Occurs [c!"@", c!"{"] k' ∧ (¬ ∃ a, k' = a ++ b!".lock") ∧
      (norm = true ∨ k' ≠ [])) ∧ (∀ c ∈ uncaret k, Plain c) ∧ (∀ k ∈ ks, ∀ c ∈ k, Plain c) ∧
      ((k :: ks).map (·.count c!"*")).sum ≤ if pat then 1 else 0 := by
  simp only [Segs, CompOk, if_true, List.mem_cons, forall_eq_or_imp, List.map_cons, List.sum_cons, segs_iff]
  constructor
  · rintro ⟨⟨h1, h2, h3, h4, h5, h6⟩, h7, h8, h9⟩
    refine ⟨⟨⟨h1, h3, h4, h6, h7⟩, fun k hk => ?_⟩, h2, fun k hk => (h8 k hk).2.1, ?_⟩
    · obtain ⟨a, b, c, d, e, f⟩ := h8 k hk; exact ⟨a, c, d, e, f⟩
    · split at h9
      · simp only [Bool.false_eq_true, if_false] at h9; omega
      · rename_i hn; rw [List.count_eq_zero.mpr hn]; omega
  · rintro ⟨⟨⟨h1, h3, h4, h6, h7⟩, h8⟩, h2, h2', h9⟩
    refine ⟨⟨h1, h2, h3, h4, by omega, h6⟩, h7, fun k hk => ?_, ?_⟩
    · obtain ⟨a, c, d, e, f⟩ := h8 k hk; exact ⟨a, h2' k hk, c, d, e, f⟩
    · split
      · rename_i hn
        have := List.count_pos_iff.mpr hn
        simp only [Bool.false_eq_true, if_false]
        split at h9 <;> omega
      · omega

theorem occurs_components {x y : UInt8} (hx : x ≠ c!"/") (hy : y ≠ c!"/") (name : Bytes) :
    Occurs [x, y] name ↔ ∃ k ∈ components name, Occurs [x, y] k := by
  induction name using comp_induction with
  | one k h => rw [components_one h]; simp
  | more k r h ih => rw [components_more h, occurs_split hx hy, ih]; simp

theorem uncaret_append (k r : Bytes) (hk : k ≠ []) : uncaret (k ++ r) = uncaret k ++ r := by
  cases k with
  | nil => exact absurd rfl hk
  | cons c k => simp only [List.cons_append, uncaret]; split <;> rfl

theorem mem_components (name : Bytes) (c : UInt8) (hc : c ≠ c!"/") : c ∈ name ↔ ∃ k ∈ components name, c ∈ k := by
  induction name using comp_induction with
  | one k h => rw [components_one h]; simp
  | more k r h ih => rw [components_more h]; simp [ih, hc]

/-- all the plain-character conditions; the slash itself is plain -/
theorem plain_components (name : Bytes) (h0 : name.head? ≠ some c!"/") (k : Bytes) (ks : List Bytes) (hk : components name = k :: ks) :
    (∀ c ∈ uncaret name, Plain c) ↔ (∀ c ∈ uncaret k, Plain c) ∧ (∀ k ∈ ks, ∀ c ∈ k, Plain c) := by
  rcases comp_cases name with h | ⟨k', r, rfl, h⟩
  · rw [components_one h] at hk
    obtain ⟨rfl, rfl⟩ := List.cons.inj hk
    simp
  · rw [components_more h] at hk
    obtain ⟨rfl, rfl⟩ := List.cons.inj hk
    have hne : k' ≠ [] := by rintro rfl; exact h0 rfl
    rw [uncaret_append _ _ hne]
    have hs : Plain c!"/" := ⟨by decide, by decide⟩
    constructor
    · intro H
      refine ⟨fun c hc => H c (List.mem_append_left _ hc), fun k hk c hc => H c ?_⟩
      have hc' : c ∈ r ∨ c = c!"/" := by
        by_cases e : c = c!"/"
        · exact .inr e
        · exact .inl ((mem_components r c e).mpr ⟨k, hk, hc⟩)
      rcases hc' with h | h
      · simp [h]
      · simp [h]
    · rintro ⟨h1, h2⟩ c hc
      rcases List.mem_append.mp hc with hc | hc
      · exact h1 c hc
      · rcases List.mem_cons.mp hc with rfl | hc
        · exact hs
        · by_cases e : c = c!"/"
          · rw [e]; exact hs
          · obtain ⟨k, hk, hck⟩ := (mem_components r c e).mp hc
            exact h2 k hk c hck

/-! ### squeezing -/

theorem squeeze_plain (k r : Bytes) (h : c!"/" ∉ k) (hk : k ≠ []) : squeeze (k ++ r) = k ++ squeeze r := by
  induction k with
  | nil => exact absurd rfl hk
  | cons c k ih =>
    have h1 : c ≠ c!"/" := fun e => h (e ▸ List.mem_cons_self)
    have h2 : c!"/" ∉ k := fun e => h (List.mem_cons_of_mem _ e)
    have step : ∀ r, squeeze (c :: r) = c :: squeeze r := by
      intro r
      cases r with
      | nil => rfl
      | cons d r => simp only [squeeze, h1, false_and, if_false]
    rw [List.cons_append, step]
    cases k with
    | nil => rfl
    | cons d k => rw [ih h2 (by simp)]; rfl

theorem squeeze_slash (k r : Bytes) (h : c!"/" ∉ k) (hk : k ≠ []) : squeeze (c!"/" :: (k ++ r)) = c!"/" :: (k ++ squeeze r) := by
  obtain ⟨c, k', rfl⟩ : ∃ c k', k = c :: k' := by
    cases k with
    | nil => exact absurd rfl hk
    | cons c k' => exact ⟨c, k', rfl⟩
  have h1 : c ≠ c!"/" := fun e => h (e ▸ List.mem_cons_self)
  rw [← squeeze_plain _ r h hk, List.cons_append, squeeze, if_neg (fun e => h1 e.2)]

theorem getLast?_more {k r : Bytes} (h : (k ++ c!"/" :: r).getLast? ≠ some c!"/") : r ≠ [] ∧ r.getLast? ≠ some c!"/" := by
  rw [List.getLast?_append, List.getLast?_cons] at h
  constructor
  · rintro rfl; simp at h
  · intro e; rw [e] at h; simp at h

theorem foldl_buf (buf : Bytes) (hb : buf ≠ []) (cur : Bytes) (hc : cur ≠ []) (hl : cur.getLast? ≠ some c!"/") :
    (components cur).foldl addComp buf = buf ++ squeeze (c!"/" :: cur) := by
  induction cur using comp_induction generalizing buf with
  | one k h =>
    rw [components_one h]
    simp only [List.foldl_cons, List.foldl_nil, addComp]
    rw [if_neg hc, if_neg hb]
    have := squeeze_slash k [] h hc
    rw [List.append_nil] at this
    rw [this]
    simp [squeeze]
  | more k r h ih =>
    obtain ⟨hr, hl'⟩ := getLast?_more hl
    rw [components_more h, List.foldl_cons]
    by_cases hk : k = []
    · subst hk
      simp only [addComp, if_true, List.nil_append]
      rw [ih buf hb hr hl', squeeze, if_pos ⟨rfl, rfl⟩]
    · rw [squeeze_slash k _ h hk]
      have : addComp buf k = buf ++ c!"/" :: k := by simp [addComp, hk, hb]
      rw [this, ih _ (by simp) hr hl']
      simp

theorem foldl_empty (name : Bytes) (hc : name ≠ []) (h0 : name.head? ≠ some c!"/") (hl : name.getLast? ≠ some c!"/") :
    (components name).foldl addComp [] = squeeze name := by
  rcases comp_cases name with h | ⟨k, r, rfl, h⟩
  · rw [components_one h]
    have := squeeze_plain name [] h hc
    rw [List.append_nil] at this
    rw [this]
    simp [addComp, hc, squeeze]
  · have hne : k ≠ [] := by rintro rfl; exact h0 rfl
    obtain ⟨hr, hl'⟩ := getLast?_more hl
    rw [components_more h, List.foldl_cons, squeeze_plain _ _ h hne]
    have : addComp [] k = k := by simp [addComp, hne]
    rw [this, foldl_buf _ hne _ hr hl']

/-! ### the end of the name -/

theorem getLast?_comp (name : Bytes) : name.getLast? = if lastComp name = [] then (if c!"/" ∈ name then some c!"/" else none) else (lastComp name).getLast? := by
  induction name using comp_induction with
  | one k h =>
    rw [lastComp_one h, if_neg h]
    split
    · rename_i e; rw [e]; rfl
    · rfl
  | more k r h ih =>
    have hm : c!"/" ∈ k ++ c!"/" :: r := by simp
    rw [lastComp_more h, if_pos hm, List.getLast?_append, List.getLast?_cons]
    split
    · rename_i e
      rw [ih, if_pos e]
      split <;> rfl
    · rename_i e
      rw [if_neg e] at ih
      cases h2 : (lastComp r).getLast? with
      | none => exact absurd (List.getLast?_eq_none_iff.mp h2) e
      | some x => rw [ih, h2]; rfl

theorem getElem?_last (l : Bytes) (h : l ≠ []) : l[l.length - 1]? = l.getLast? := by
  rw [List.getLast?_eq_getElem?]

theorem cnt_pos {name : Bytes} (h : lastComp name ≠ []) : 0 < cnt (components name) := by
  unfold cnt
  rw [List.countP_pos_iff]
  refine ⟨lastComp name, ?_, by simpa using h⟩
  unfold lastComp at *
  cases hl : (components name).getLast? with
  | none => rw [hl] at h; exact absurd rfl h
  | some x => exact List.mem_of_getLast? hl

theorem capsLoop_false (k : Bytes) : capsLoop false k = true ↔ ∀ c ∈ k, (c!"A" ≤ c ∧ c ≤ c!"Z") ∨ c = c!"_" := by
  induction k with
  | nil => simp [capsLoop]
  | cons c k ih =>
    simp only [capsLoop, Bool.false_and, Bool.false_eq_true, if_false, List.mem_cons, forall_eq_or_imp]
    rw [← ih]
    have : ((decide (c < c!"A") || decide (c > c!"Z")) && decide (c ≠ c!"_")) = true ↔ ¬ ((c!"A" ≤ c ∧ c ≤ c!"Z") ∨ c = c!"_") := by
      revert c; decide +kernel
    split
    · rename_i h; simp [this.mp h]
    · rename_i h; simp [Decidable.not_not.mp (fun e => h (this.mpr e))]

theorem capsLoop_true (k : Bytes) : capsLoop true k = true ↔ ∀ c ∈ uncaret k, (c!"A" ≤ c ∧ c ≤ c!"Z") ∨ c = c!"_" := by
  cases k with
  | nil => simp [capsLoop, uncaret]
  | cons c k =>
    simp only [uncaret]
    by_cases h : c = c!"^"
    · rw [if_pos h, ← capsLoop_false]
      simp [capsLoop, h]
    · rw [if_neg h, ← capsLoop_false]
      simp [capsLoop, h]

theorem topLevel_iff (k tail : Bytes) (hk : k ≠ []) : isValidNormalizedName (k ++ tail) k.length = true ↔ TopLevel k := by
  unfold isValidNormalizedName TopLevel
  have hlen : k.length ≠ 0 := by simpa using hk
  have h1 : (k ++ tail).head? = k.head? := by
    cases k with
    | nil => exact absurd rfl hk
    | cons c k => rfl
  have h2 : (k ++ tail)[k.length - 1]? = k.getLast? := by
    rw [List.getElem?_append_left (by omega), List.getLast?_eq_getElem?]
  rw [if_neg hlen, List.take_left, h1, h2, ← capsLoop_true]
  by_cases hc : capsLoop true k = true
  · rw [if_neg (by simpa using hc)]
    by_cases ha : k.head? = some c!"_"
    · simp [ha]
    · by_cases hb : k.getLast? = some c!"_"
      · simp [hb]
      · simp [ha, hb, hc]
  · rw [if_pos (by simpa using hc)]
    simp [hc]

end Verif.RefName
