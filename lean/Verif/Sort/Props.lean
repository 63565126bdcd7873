import Verif.Sort.LemmasDepth
/-! # C26: sorting and binary search -/
namespace Verif.Sort
open Spec
variable {α : Type} {cmp : α → α → Int}

theorem minrunLoop_ge (fuel : Nat) : ∀ (r n : Nat), 32 ≤ n → 32 ≤ minrunLoop r fuel n := by
  induction fuel with
  | zero => intro r n h; rw [minrunLoop]; omega
  | succ fuel ih =>
    intro r n h
    rw [minrunLoop]
    split
    · exact ih _ _ (by omega)
    · omega

theorem tsort_cases (hc : TotalPreorder cmp) (l : List α) :
    (2 ^ 47 < l.length ∧ tsort cmp l = .err STACK_OVERFLOW) ∨ ∃ out, tsort cmp l = .ok out ∧ StableSort cmp l out := by
  unfold tsort
  simp only
  by_cases h : l.length < 64
  · rw [if_pos h]
    right
    match l with
    | [] => exact ⟨[], rfl, by simp [Sorted], .refl _⟩
    | a :: l =>
      obtain ⟨d, h1, h2, h3⟩ := bisort_ok hc l.length 1 (a :: l) (by omega) (by simp; omega) (by simp [Sorted])
      refine ⟨d, by simpa using h1, ?_⟩
      have e : 1 + l.length = (a :: l).length := by simp; omega
      rw [e, List.take_length] at h3
      have hl := h3.stable.length
      have h2' := congrArg List.length h2
      have : (d.take (a :: l).length) = d := by
        apply List.take_of_length_le
        rw [e] at h2'
        simp only [List.length_drop] at h2'
        simp only [List.length_take] at hl
        omega
      rwa [this] at h3
  · rw [if_neg h]
    have hne : l ≠ [] := by intro e; rw [e] at h; simp at h
    by_cases hsz : l.length ≤ 2 ^ 47
    · obtain ⟨out, g1, g2⟩ := sortLoop_depth hc (computeMinrun l.length) l (minrunLoop_ge _ _ _ (by omega)) hsz (2 * l.length + 4) 3 [] [] [] l .nil rfl hne
        (by simp [checkInvariant]) (by simp) (by simp)
      exact .inr ⟨out, by simpa using g1, g2⟩
    · rcases sortLoop_ok hc (computeMinrun l.length) l (2 * l.length + 4) 3 [] [] [] l .nil rfl hne (by
        simp [checkInvariant]) with g | ⟨out, g1, g2⟩
      · exact .inl ⟨by omega, by simpa using g⟩
      · exact .inr ⟨out, by simpa using g1, g2⟩

theorem bsearchLoop_ok (key : α → Int) (a : List α) (hs : Searchable key a) (fuel : Nat) : ∀ (base lim : Nat) (c : Int), lim < fuel →
    base + lim ≤ a.length → c ≠ 0 →
    (∀ i x, i < base → a[i]? = some x → 0 < key x) → (∀ i x, base + lim ≤ i → a[i]? = some x → key x < 0) →
    ∃ c' pos, bsearchLoop key a fuel base lim c = .ok (c', pos) ∧
      ((c' = 0 ∧ ∃ x, a[pos]? = some x ∧ key x = 0) ∨
       (c' ≠ 0 ∧ pos ≤ a.length ∧ (∀ i x, i < pos → a[i]? = some x → 0 < key x) ∧ (∀ i x, pos ≤ i → a[i]? = some x → key x < 0))) := by
  have hget : ∀ (i j : Nat) (x y : α), i < j → a[i]? = some x → a[j]? = some y → (0 < key y → 0 < key x) ∧ (key x < 0 → key y < 0) := by
    intro i j x y hij hx hy
    obtain ⟨h1, e1⟩ := List.getElem?_eq_some_iff.mp hx
    obtain ⟨h2, e2⟩ := List.getElem?_eq_some_iff.mp hy
    subst e1 e2
    exact List.pairwise_iff_getElem.mp hs i j h1 h2 hij
  induction fuel with
  | zero => intro base lim c h; omega
  | succ fuel ih =>
    intro base lim c hf hb hc h1 h2
    rw [bsearchLoop]
    by_cases hl : lim = 0
    · rw [if_neg (by omega)]
      exact ⟨c, base, rfl, .inr ⟨hc, by omega, h1, by intro i x hi; exact h2 i x (by omega)⟩⟩
    · rw [if_pos hl]
      have hp : a[base + lim / 2]? = some a[base + lim / 2] := List.getElem?_eq_getElem (by omega)
      rw [rd_ok hp]
      simp only
      generalize a[base + lim / 2] = p at hp
      split
      · rename_i h0
        exact ⟨0, _, rfl, .inl ⟨rfl, p, hp, h0⟩⟩
      · split
        · rename_i h0 hpos
          apply ih _ _ _ (by omega) (by omega) h0
          · intro i x hi hx
            rcases Nat.lt_or_eq_of_le (Nat.lt_succ_iff.mp hi) with h | h
            · exact (hget i _ x p h hx hp).1 hpos
            · subst h; rw [hp] at hx; cases hx; exact hpos
          · intro i x hi hx; exact h2 i x (by omega) hx
        · rename_i h0 hpos
          apply ih _ _ _ (by omega) (by omega) h0 h1
          intro i x hi hx
          rcases Nat.lt_or_eq_of_le hi with h | h
          · exact (hget _ i p x h hp hx).2 (by omega)
          · subst h; rw [hp] at hx; cases hx; omega

/-- Sorting any array of up to 2^47 elements (a petabyte of pointers) with any comparison function that is a total preorder yields the
sorted, stable rearrangement of the input: no read or write outside the array, and no push onto the full 128-entry run stack. -/
theorem C26_sorts (hc : TotalPreorder cmp) (l : List α) (h : l.length ≤ 2 ^ 47) :
    ∃ out, tsort cmp l = .ok out ∧ StableSort cmp l out := by
  rcases tsort_cases hc l with g | g
  · omega
  · exact g

/-- Whatever the length, the only other outcome of the model is the marker for a push onto the full run stack. -/
theorem C26_sorts_any (hc : TotalPreorder cmp) (l : List α) :
    (∃ out, tsort cmp l = .ok out ∧ StableSort cmp l out) ∨ (2 ^ 47 < l.length ∧ tsort cmp l = .err STACK_OVERFLOW) :=
  (tsort_cases hc l).symm

/-- The stable sort of a list is unique, so `C26_sorts` determines the output completely. -/
theorem C26_stable_sort_unique (hc : TotalPreorder cmp) (l a b : List α) (ha : StableSort cmp l a) (hb : StableSort cmp l b) : a = b := by
  have hfil : ∀ e, a.filter (fun x => cmp x e = 0) = b.filter (fun x => cmp x e = 0) :=
    fun e => (ha.stable.order e).trans (hb.stable.order e).symm
  have hperm : a.Perm b := ha.stable.perm.trans hb.stable.perm.symm
  have hsa := ha.sorted
  have hsb := hb.sorted
  clear ha hb
  induction a generalizing b with
  | nil => exact (List.nil_perm.mp hperm).symm
  | cons x a ih =>
    cases b with
    | nil => exact absurd hperm.symm (List.not_perm_nil_cons x a)
    | cons y b =>
      rw [sorted_cons] at hsa hsb
      have hxy : cmp x y ≤ 0 := by
        rcases List.mem_cons.mp (hperm.symm.mem_iff.mp (List.mem_cons_self (a := y) (l := b))) with h | h
        · subst h; exact Int.le_of_eq (hc.self _)
        · exact hsa.1 y h
      have hyx : cmp y x ≤ 0 := by
        rcases List.mem_cons.mp (hperm.mem_iff.mp (List.mem_cons_self (a := x) (l := a))) with h | h
        · subst h; exact Int.le_of_eq (hc.self _)
        · exact hsb.1 x h
      have h0 : cmp y x = 0 := by
        rcases Int.lt_trichotomy (cmp y x) 0 with h | h | h
        · have := hc.gt_of_lt h; omega
        · exact h
        · omega
      have e := hfil x
      simp only [List.filter_cons, hc.self x, h0, decide_true, if_true] at e
      injection e with e1 e2
      subst e1
      congr 1
      apply ih b _ (List.perm_cons x |>.mp hperm) hsa.2 hsb.2
      intro e'
      have := hfil e'
      simp only [List.filter_cons] at this
      split at this
      · injection this
      · exact this

/-- Binary search in a searchable array never reads outside it, terminates, and finds the key exactly when it is there; otherwise it
returns the insertion point. -/
theorem C26_bsearch (key : α → Int) (a : List α) (hs : Searchable key a) :
    ∃ found pos, bsearch key a = .ok (found, pos) ∧ (found = true ↔ ∃ x ∈ a, key x = 0) ∧
      (found = true → ∃ x, a[pos]? = some x ∧ key x = 0) ∧
      (found = false → pos ≤ a.length ∧ (∀ x ∈ a.take pos, 0 < key x) ∧ (∀ x ∈ a.drop pos, key x < 0)) := by
  obtain ⟨c, pos, h1, h2⟩ := bsearchLoop_ok key a hs (a.length + 1) 0 a.length (-1) (by omega) (by omega) (by omega)
    (by intro i x hi; omega) (by intro i x hi hx; have := (List.getElem?_eq_some_iff.mp hx).1; omega)
  refine ⟨decide (c = 0), pos, by unfold bsearch; rw [h1], ?_, ?_, ?_⟩
  · rcases h2 with ⟨h, x, hx, h0⟩ | ⟨h, _, g1, g2⟩
    · simp only [h, decide_true, true_iff]
      exact ⟨x, List.mem_of_getElem? hx, h0⟩
    · simp only [h, decide_false, Bool.false_eq_true, false_iff, not_exists, not_and]
      intro x hx h0
      obtain ⟨i, hi, e⟩ := List.mem_iff_getElem.mp hx
      have hi' : a[i]? = some x := by rw [← e]; exact List.getElem?_eq_getElem hi
      rcases Nat.lt_or_ge i pos with hlt | hge
      · have := g1 i x hlt hi'; omega
      · have := g2 i x hge hi'; omega
  · rcases h2 with ⟨h, x, hx, h0⟩ | ⟨h, _⟩
    · intro _; exact ⟨x, hx, h0⟩
    · simp [h]
  · rcases h2 with ⟨h, _⟩ | ⟨h, g0, g1, g2⟩
    · simp [h]
    · intro _
      refine ⟨g0, ?_, ?_⟩
      · intro x hx
        obtain ⟨i, hi, e⟩ := List.mem_iff_getElem.mp hx
        rw [List.length_take] at hi
        apply g1 i x (by omega)
        rw [← e, List.getElem_take]; exact List.getElem?_eq_getElem (by omega)
      · intro x hx
        obtain ⟨i, hi, e⟩ := List.mem_iff_getElem.mp hx
        rw [List.length_drop] at hi
        apply g2 (pos + i) x (by omega)
        rw [← e, List.getElem_drop]; exact List.getElem?_eq_getElem (by omega)

/-! ### concrete cases -/

/-- comparing the first components only: elements with equal keys are told apart, so stability matters -/
def keyCmp (a b : Nat × Nat) : Int := (a.1 : Int) - b.1

theorem keyCmp_preorder : TotalPreorder keyCmp := ⟨by intro a b; unfold keyCmp; omega, by intro a b c; unfold keyCmp; omega⟩

example : tsort keyCmp [(3, 0), (1, 1), (3, 2), (2, 3), (1, 4)] = .ok [(1, 1), (1, 4), (2, 3), (3, 0), (3, 2)] := by decide +kernel
example : tsort keyCmp ((List.range 200).map (fun i => (i * 37 % 100, i))) =
    .ok ((List.range 100).flatMap (fun k => ((List.range 200).map (fun i => (i * 37 % 100, i))).filter (fun p => p.1 = k))) := by decide +kernel
example : Searchable (fun x : Int => 5 - x) [1, 3, 5, 5, 9] := by unfold Searchable; decide
example : bsearch (fun x : Int => 5 - x) [1, 3, 5, 5, 9] = .ok (true, 2) := by decide +kernel
example : bsearch (fun x : Int => 4 - x) [1, 3, 5, 5, 9] = .ok (false, 2) := by decide +kernel

end Verif.Sort
