import Verif.Sort.Model
import Verif.Sort.Spec
namespace Verif.Sort
open Spec
variable {α : Type} {cmp : α → α → Int}

namespace Spec.TotalPreorder
theorem self (h : TotalPreorder cmp) (a : α) : cmp a a = 0 := by
  have := h.flip a a; omega
theorem eq_symm (h : TotalPreorder cmp) {a b : α} (e : cmp a b = 0) : cmp b a = 0 := by
  have := h.flip a b; have := h.flip b a; omega
theorem le_of_gt (h : TotalPreorder cmp) {a b : α} (e : 0 < cmp a b) : cmp b a < 0 := (h.flip b a).2 e
theorem gt_of_lt (h : TotalPreorder cmp) {a b : α} (e : cmp a b < 0) : 0 < cmp b a := (h.flip a b).1 e
theorem eq_trans (h : TotalPreorder cmp) {a b c : α} (e1 : cmp a b = 0) (e2 : cmp b c = 0) : cmp a c = 0 := by
  have h1 := h.trans a b c (by omega) (by omega)
  have h2 := h.trans c b a (by have := h.eq_symm e2; omega) (by have := h.eq_symm e1; omega)
  have := h.flip a c; omega
theorem lt_of_lt_of_le (h : TotalPreorder cmp) {a b c : α} (e1 : cmp a b < 0) (e2 : cmp b c ≤ 0) : cmp a c < 0 := by
  have h1 := h.trans a b c (by omega) e2
  rcases Int.lt_or_eq_of_le h1 with h2 | h2
  · exact h2
  · have h3 := h.trans b c a e2 (by have := h.eq_symm h2; omega)
    have := h.gt_of_lt e1; omega
theorem lt_of_le_of_lt (h : TotalPreorder cmp) {a b c : α} (e1 : cmp a b ≤ 0) (e2 : cmp b c < 0) : cmp a c < 0 := by
  have h1 := h.trans a b c e1 (by omega)
  rcases Int.lt_or_eq_of_le h1 with h2 | h2
  · exact h2
  · have h3 := h.trans c a b (by have := h.eq_symm h2; omega) e1
    have := h.gt_of_lt e2; omega
theorem le_of_not_lt (h : TotalPreorder cmp) {a b : α} (e : ¬ cmp a b < 0) : cmp b a ≤ 0 := by
  have := h.flip b a
  have := h.flip a b
  omega
end Spec.TotalPreorder

/-! ### stability -/
namespace Spec.Stable
theorem refl (l : List α) : Stable cmp l l := ⟨.refl _, fun _ => rfl⟩
theorem trans {a b c : List α} (h1 : Stable cmp a b) (h2 : Stable cmp b c) : Stable cmp a c :=
  ⟨h2.perm.trans h1.perm, fun e => (h2.order e).trans (h1.order e)⟩
theorem append {a b c d : List α} (h1 : Stable cmp a b) (h2 : Stable cmp c d) : Stable cmp (a ++ c) (b ++ d) :=
  ⟨h1.perm.append h2.perm, fun e => by rw [List.filter_append, List.filter_append, h1.order, h2.order]⟩
theorem swap (hc : TotalPreorder cmp) (x y : List α) (h : ∀ a ∈ x, ∀ b ∈ y, cmp a b ≠ 0) : Stable cmp (x ++ y) (y ++ x) := by
  refine ⟨List.perm_append_comm, fun e => ?_⟩
  rw [List.filter_append, List.filter_append]
  by_cases hx : x.filter (fun a => cmp a e = 0) = []
  · rw [hx]; simp
  · have hy : y.filter (fun a => cmp a e = 0) = [] := by
      rw [List.filter_eq_nil_iff]
      intro b hb hbe
      obtain ⟨a, ha⟩ := List.exists_mem_of_ne_nil _ hx
      rw [List.mem_filter] at ha
      simp at ha hbe
      exact h a ha.1 b hb (hc.eq_trans ha.2 (hc.eq_symm hbe))
    rw [hy]; simp
theorem length {a b : List α} (h : Stable cmp a b) : b.length = a.length := h.perm.length_eq
theorem mem {a b : List α} (h : Stable cmp a b) (x : α) : x ∈ b ↔ x ∈ a := h.perm.mem_iff
end Spec.Stable

/-! ### sortedness -/
theorem sorted_append {a b : List α} : Sorted cmp (a ++ b) ↔ Sorted cmp a ∧ Sorted cmp b ∧ ∀ x ∈ a, ∀ y ∈ b, cmp x y ≤ 0 := by
  unfold Sorted; exact List.pairwise_append

theorem sorted_get (h : Sorted cmp l) {i j : Nat} (hij : i < j) {x y : α} (hx : l[i]? = some x) (hy : l[j]? = some y) : cmp x y ≤ 0 := by
  obtain ⟨h1, h2⟩ := List.getElem?_eq_some_iff.mp hx
  obtain ⟨h3, h4⟩ := List.getElem?_eq_some_iff.mp hy
  subst h2 h4
  exact (List.pairwise_iff_getElem.mp h) i j h1 h3 hij

theorem rd_ok {l : List α} {i : Nat} {x : α} (h : l[i]? = some x) : rd l i = .ok x := by unfold rd; rw [h]
theorem wr_ok {l : List α} {i : Nat} {x : α} (h : i < l.length) : wr l i x = .ok (l.set i x) := by unfold wr; rw [if_pos h]

/-! ### binary insertion -/

/-- `p` is the place to insert `x` in the first `size` elements: everything before is `≤ x`, everything from `p` on is `> x` -/
def UpperBound (cmp : α → α → Int) (dst : List α) (size : Nat) (x : α) (p : Nat) : Prop :=
  p < size ∧ (∀ i y, i < p → dst[i]? = some y → cmp y x ≤ 0) ∧ (∀ i y, p ≤ i → i < size → dst[i]? = some y → cmp x y < 0)

theorem scanEq_ok (hc : TotalPreorder cmp) (x : α) (dst : List α) (size : Nat) (hs : Sorted cmp (dst.take size)) (hsz : size ≤ dst.length)
    (hlast : ∃ y, dst[size - 1]? = some y ∧ cmp x y < 0) (h0 : 0 < size) (fuel i : Nat) (hi : i < size)
    (hpre : ∀ k y, k < i → dst[k]? = some y → cmp y x ≤ 0) (hx : ∃ y, dst[i - 1]? = some y ∧ cmp x y = 0) (hi0 : 0 < i)
    (hf : size - i < fuel) :
    ∃ p, scanEq cmp x dst fuel i = .ok p ∧ UpperBound cmp dst size x p := by
  have hsget : ∀ {a b : Nat} {u v : α}, a < b → b < size → dst[a]? = some u → dst[b]? = some v → cmp u v ≤ 0 := by
    intro a b u v hab hb hu hv
    apply sorted_get hs hab
    · rw [List.getElem?_take, if_pos (by omega)]; exact hu
    · rw [List.getElem?_take, if_pos (by omega)]; exact hv
  induction fuel generalizing i with
  | zero => omega
  | succ fuel ih =>
    have hil : i < dst.length := by omega
    have hr : dst[i]? = some dst[i] := List.getElem?_eq_getElem hil
    rw [scanEq, rd_ok hr]
    simp only
    by_cases he : cmp x dst[i] = 0
    · rw [if_pos he]
      have hne : i ≠ size - 1 := by
        intro h
        obtain ⟨y, h1, h2⟩ := hlast
        rw [← h, hr] at h1
        cases h1; omega
      apply ih (i + 1) (by omega)
      · intro k y hk hy
        rcases Nat.lt_or_eq_of_le (Nat.lt_succ_iff.mp hk) with h | h
        · exact hpre k y h hy
        · subst h
          rw [hr] at hy
          cases hy
          have := hc.eq_symm he; omega
      · exact ⟨_, by simpa using hr, he⟩
      · omega
      · omega
    · rw [if_neg he]
      refine ⟨i, rfl, hi, hpre, ?_⟩
      obtain ⟨y0, h1, h2⟩ := hx
      have hle : cmp y0 dst[i] ≤ 0 := hsget (by omega) hi h1 hr
      have hlt : cmp x dst[i] < 0 := by
        have := hc.trans x y0 dst[i] (by omega) hle
        omega
      intro k y hk hks hy
      rcases Nat.lt_or_eq_of_le hk with h | h
      · exact hc.lt_of_lt_of_le hlt (hsget h hks hr hy)
      · subst h; rw [hr] at hy; cases hy; exact hlt

theorem bsLoop_ok (hc : TotalPreorder cmp) (x : α) (dst : List α) (size : Nat) (hs : Sorted cmp (dst.take size)) (hsz : size ≤ dst.length)
    (hlast : ∃ y, dst[size - 1]? = some y ∧ cmp x y < 0) (h0 : 0 < size) (fuel l c r : Nat)
    (hlc : l ≤ c) (hcr : c < r) (hrs : r < size) (hmid : c = l + (r - l) / 2)
    (hl : ∃ y, dst[l]? = some y ∧ 0 < cmp x y) (hr : ∃ y, dst[r]? = some y ∧ cmp x y < 0) (hf : r - l < fuel) :
    ∃ p, bsLoop cmp x dst fuel l c r = .ok p ∧ UpperBound cmp dst size x p := by
  have hsget : ∀ {a b : Nat} {u v : α}, a < b → b < size → dst[a]? = some u → dst[b]? = some v → cmp u v ≤ 0 := by
    intro a b u v hab hb hu hv
    apply sorted_get hs hab
    · rw [List.getElem?_take, if_pos (by omega)]; exact hu
    · rw [List.getElem?_take, if_pos (by omega)]; exact hv
  have below : ∀ p u, p < size → dst[p]? = some u → cmp u x ≤ 0 → ∀ i y, i ≤ p → dst[i]? = some y → cmp y x ≤ 0 := by
    intro p u hp hu hux i y hi hy
    rcases Nat.lt_or_eq_of_le hi with h | h
    · exact hc.trans _ _ _ (hsget h hp hy hu) hux
    · subst h; rw [hu] at hy; cases hy; exact hux
  have above : ∀ p u, dst[p]? = some u → cmp x u < 0 → ∀ i y, p ≤ i → i < size → dst[i]? = some y → cmp x y < 0 := by
    intro p u hu hux i y hi his hy
    rcases Nat.lt_or_eq_of_le hi with h | h
    · exact hc.lt_of_lt_of_le hux (hsget h his hu hy)
    · subst h; rw [hu] at hy; cases hy; exact hux
  obtain ⟨yl, hl1, hl2⟩ := hl
  obtain ⟨yr, hr1, hr2⟩ := hr
  induction fuel generalizing l c r yl yr with
  | zero => omega
  | succ fuel ih =>
    have hcl : c < dst.length := by omega
    have hrc : dst[c]? = some dst[c] := List.getElem?_eq_getElem hcl
    rw [bsLoop, rd_ok hrc]
    simp only
    by_cases h1 : cmp x dst[c] < 0
    · rw [if_pos h1]
      have hne : l ≠ c := by
        intro h; subst h; rw [hrc] at hl1; cases hl1; omega
      by_cases h2 : (c : Int) - l ≤ 1
      · rw [if_pos h2]
        refine ⟨c, rfl, by omega, ?_, ?_⟩
        · intro i y hi hy
          have := hc.le_of_gt hl2
          exact below l yl (by omega) hl1 (by omega) i y (by omega) hy
        · intro i y hi his hy
          exact above c _ hrc h1 i y hi his hy
      · rw [if_neg h2]
        exact ih l (l + (c - l) / 2) c (by omega) (by omega) (by omega) rfl (by omega) yl hl1 hl2 _ hrc h1
    · rw [if_neg h1]
      by_cases h3 : 0 < cmp x dst[c]
      · rw [if_pos h3]
        by_cases h4 : (r : Int) - c ≤ 1
        · rw [if_pos h4]
          have hrc1 : r = c + 1 := by omega
          refine ⟨c + 1, rfl, by omega, ?_, ?_⟩
          · intro i y hi hy
            have := hc.le_of_gt h3
            exact below c _ (by omega) hrc (by omega) i y (by omega) hy
          · intro i y hi his hy
            exact above r yr hr1 hr2 i y (by omega) his hy
        · rw [if_neg h4]
          exact ih c (c + (r - c) / 2) r (by omega) (by omega) hrs rfl (by omega) _ hrc h3 yr hr1 hr2
      · rw [if_neg h3]
        have he : cmp x dst[c] = 0 := by omega
        apply scanEq_ok hc x dst size hs hsz hlast h0 _ (c + 1) (by omega)
        · intro k y hk hy
          have := hc.eq_symm he
          exact below c _ (by omega) hrc (by omega) k y (by omega) hy
        · exact ⟨_, by simpa using hrc, he⟩
        · omega
        · omega

theorem binsearch_ok (hc : TotalPreorder cmp) (x : α) (dst : List α) (size : Nat) (hs : Sorted cmp (dst.take size)) (hsz : size ≤ dst.length)
    (hlast : ∃ y, dst[size - 1]? = some y ∧ cmp x y < 0) (h0 : 0 < size) :
    ∃ p, binsearch cmp x dst size = .ok p ∧ UpperBound cmp dst size x p := by
  have h0l : 0 < dst.length := by omega
  have hr0 : dst[0]? = some dst[0] := List.getElem?_eq_getElem h0l
  have hsget : ∀ {a b : Nat} {u v : α}, a < b → b < size → dst[a]? = some u → dst[b]? = some v → cmp u v ≤ 0 := by
    intro a b u v hab hb hu hv
    apply sorted_get hs hab
    · rw [List.getElem?_take, if_pos (by omega)]; exact hu
    · rw [List.getElem?_take, if_pos (by omega)]; exact hv
  unfold binsearch
  rw [rd_ok hr0]
  simp only [Res.bind_ok]
  by_cases h1 : cmp x dst[0] < 0
  · rw [if_pos h1]
    refine ⟨0, rfl, h0, by omega, ?_⟩
    intro i y _ his hy
    rcases Nat.eq_zero_or_pos i with h | h
    · subst h; rw [hr0] at hy; cases hy; exact h1
    · exact hc.lt_of_lt_of_le h1 (hsget h his hr0 hy)
  · rw [if_neg h1]
    have hsz1 : size ≠ 1 := by
      intro h; subst h
      obtain ⟨y, a1, a2⟩ := hlast
      rw [show (1 - 1 : Nat) = 0 from rfl, hr0] at a1
      cases a1; omega
    by_cases h2 : cmp x dst[0] = 0
    · rw [if_pos h2]
      apply scanEq_ok hc x dst size hs hsz hlast h0 _ 1 (by omega)
      · intro k y hk hy
        have : k = 0 := by omega
        subst this; rw [hr0] at hy; cases hy
        have := hc.eq_symm h2; omega
      · exact ⟨_, hr0, h2⟩
      · omega
      · omega
    · rw [if_neg h2]
      exact bsLoop_ok hc x dst size hs hsz hlast h0 _ 0 ((size - 1) / 2) (size - 1) (by omega) (by omega) (by omega) (by omega)
        ⟨_, hr0, by omega⟩ hlast (by omega)

theorem shiftUp_ok (P M S : List α) (y : α) : ∀ (n : Nat), M.length = n →
    ∃ z, shiftUp (P ++ M ++ y :: S) P.length n = .ok (P ++ z :: M ++ S) := by
  intro n
  induction M using list_snoc_induction generalizing n y S with
  | hnil => intro h; simp at h; subst h; exact ⟨y, by simp [shiftUp]⟩
  | hsnoc M a ih =>
    intro h
    simp at h
    subst h
    rw [shiftUp]
    have e1 : (P ++ (M ++ [a]) ++ y :: S)[P.length + M.length]? = some a := by
      simp [List.getElem?_append]
    rw [rd_ok e1]
    simp only
    rw [wr_ok (by simp; omega)]
    simp only
    have e2 : (P ++ (M ++ [a]) ++ y :: S).set (P.length + M.length + 1) a = P ++ M ++ a :: (a :: S) := by
      have : P ++ (M ++ [a]) ++ y :: S = (P ++ (M ++ [a])) ++ y :: S := by simp
      rw [this, List.set_append_right _ _ (by simp; omega)]
      simp [Nat.add_assoc]
    rw [e2]
    obtain ⟨z, hz⟩ := ih (a :: S) a M.length rfl
    exact ⟨z, by rw [hz]; simp⟩

/-- one step of the insertion sort extends the sorted prefix by one element, stably -/
theorem bisortStep_ok (hc : TotalPreorder cmp) (dst : List α) (i : Nat) (hi0 : 0 < i) (hi : i < dst.length)
    (hs : Sorted cmp (dst.take i)) :
    ∃ d, bisortStep cmp dst i = .ok d ∧ d.drop (i + 1) = dst.drop (i + 1) ∧
      StableSort cmp (dst.take (i + 1)) (d.take (i + 1)) := by
  have ha : dst[i - 1]? = some dst[i - 1] := List.getElem?_eq_getElem (by omega)
  have hx : dst[i]? = some dst[i] := List.getElem?_eq_getElem hi
  generalize dst[i - 1] = a at ha
  generalize dst[i] = x at hx
  have htake : dst.take (i + 1) = dst.take i ++ [x] := by rw [List.take_add_one, hx]; rfl
  have hlast : ∀ y ∈ dst.take i, cmp y a ≤ 0 := by
    intro y hy
    obtain ⟨k, hk⟩ := List.mem_iff_getElem?.mp hy
    have hk' : k < i := by
      have := (List.getElem?_eq_some_iff.mp hk).1
      simp at this; omega
    rcases Nat.lt_or_eq_of_le (Nat.le_sub_one_of_lt hk') with h | h
    · exact sorted_get hs h hk (by rw [List.getElem?_take, if_pos (by omega)]; exact ha)
    · subst h
      rw [List.getElem?_take, if_pos (by omega), ha] at hk
      cases hk
      have := hc.self a; omega
  unfold bisortStep
  rw [rd_ok ha, rd_ok hx]
  simp only [Res.bind_ok]
  by_cases h1 : cmp a x ≤ 0
  · rw [if_pos h1]
    refine ⟨dst, rfl, rfl, ⟨?_, .refl _⟩⟩
    rw [htake, sorted_append]
    refine ⟨hs, by simp [Sorted], ?_⟩
    intro y hy z hz
    simp at hz; subst hz
    exact hc.trans _ _ _ (hlast y hy) h1
  · rw [if_neg h1]
    obtain ⟨p, hp, hp1, hp2, hp3⟩ := binsearch_ok hc x dst i hs (by omega) ⟨a, ha, hc.le_of_gt (by omega)⟩ hi0
    rw [hp]
    simp only [Res.bind_ok]
    -- decompose dst
    have hdec : dst = dst.take p ++ (dst.drop p).take (i - p) ++ x :: dst.drop (i + 1) := by
      have e1 : dst.take i = dst.take p ++ (dst.drop p).take (i - p) := by
        conv => lhs; rw [show i = p + (i - p) by omega]
        rw [List.take_add]
      rw [← e1]
      have e2 : x :: dst.drop (i + 1) = dst.drop i := by
        rw [List.drop_eq_getElem_cons hi]
        have := (List.getElem?_eq_some_iff.mp hx).2
        rw [this]
      rw [e2, List.take_append_drop]
    have etake : dst.take i = dst.take p ++ (dst.drop p).take (i - p) := by
      conv => lhs; rw [show i = p + (i - p) by omega]
      rw [List.take_add]
    have hPl : (dst.take p).length = p := by simp; omega
    have hMl : ((dst.drop p).take (i - p)).length = i - p := by simp; omega
    have hP : ∀ y ∈ dst.take p, cmp y x ≤ 0 := by
      intro y hy
      obtain ⟨k, hk⟩ := List.mem_iff_getElem?.mp hy
      have hk' : k < p := by
        have := (List.getElem?_eq_some_iff.mp hk).1
        simp at this; omega
      rw [List.getElem?_take, if_pos hk'] at hk
      exact hp2 k y hk' hk
    have hM : ∀ y ∈ (dst.drop p).take (i - p), cmp x y < 0 := by
      intro y hy
      obtain ⟨k, hk⟩ := List.mem_iff_getElem?.mp hy
      have hk' : k < i - p := by
        have := (List.getElem?_eq_some_iff.mp hk).1
        rw [hMl] at this; exact this
      rw [List.getElem?_take, if_pos hk', List.getElem?_drop] at hk
      exact hp3 (p + k) y (by omega) (by omega) hk
    generalize hPd : dst.take p = P at *
    generalize hMd : (dst.drop p).take (i - p) = M at *
    generalize hSd : dst.drop (i + 1) = S at *
    subst hPl
    rw [hdec]
    obtain ⟨z, hz⟩ := shiftUp_ok P M S x (i - P.length) hMl
    rw [hz]
    simp only [Res.bind_ok]
    rw [wr_ok (by simp)]
    have hset : (P ++ z :: M ++ S).set P.length x = P ++ x :: M ++ S := by
      rw [List.append_assoc, List.set_append_right _ _ (Nat.le_refl _)]
      simp
    rw [hset]
    have hlen : (P ++ x :: M).length = i + 1 := by simp; omega
    refine ⟨_, rfl, ?_, ?_⟩
    · rw [← hlen, List.drop_left]
    · have e1 : (P ++ x :: M ++ S).take (i + 1) = P ++ x :: M := by rw [← hlen, List.take_left]
      have e2 : (P ++ M ++ x :: S).take (i + 1) = P ++ (M ++ [x]) := by
        have : P ++ M ++ x :: S = (P ++ (M ++ [x])) ++ S := by simp
        rw [this]
        have hlen2 : (P ++ (M ++ [x])).length = i + 1 := by simp; omega
        rw [← hlen2, List.take_left]
      rw [e1, e2]
      rw [etake] at hs
      rw [sorted_append] at hs
      obtain ⟨s1, s2, s3⟩ := hs
      refine ⟨?_, ?_⟩
      · rw [sorted_append]
        refine ⟨s1, ?_, ?_⟩
        · unfold Sorted
          rw [List.pairwise_cons]
          exact ⟨fun y hy => by have := hM y hy; omega, s2⟩
        · intro y hy w hw
          rcases List.mem_cons.mp hw with h | h
          · subst h; exact hP y hy
          · exact s3 y hy w h
      · apply Stable.append (.refl _)
        apply Stable.swap hc M [x]
        intro y hy w hw
        simp at hw; subst hw
        have h1 := hM y hy
        intro h2
        have := hc.eq_symm h2
        omega

theorem bisort_ok (hc : TotalPreorder cmp) (n : Nat) : ∀ (i : Nat) (dst : List α), 0 < i → i + n ≤ dst.length →
    Sorted cmp (dst.take i) →
    ∃ d, bisort cmp n i dst = .ok d ∧ d.drop (i + n) = dst.drop (i + n) ∧ StableSort cmp (dst.take (i + n)) (d.take (i + n)) := by
  induction n with
  | zero =>
    intro i dst _ _ hs
    exact ⟨dst, rfl, rfl, hs, .refl _⟩
  | succ n ih =>
    intro i dst hi0 hle hs
    obtain ⟨d, h1, h2, h3⟩ := bisortStep_ok hc dst i hi0 (by omega) hs
    have hdl : d.length = dst.length := by
      have a1 := h3.stable.length
      have a2 := congrArg List.length h2
      simp at a1 a2; omega
    rw [bisort, h1]
    simp only
    obtain ⟨d', g1, g2, g3⟩ := ih (i + 1) d (by omega) (by omega) h3.sorted
    have e : i + 1 + n = i + (n + 1) := by omega
    rw [e] at g2 g3
    refine ⟨d', g1, ?_, g3.sorted, ?_⟩
    · rw [g2]
      have := congrArg (List.drop n) h2
      simpa [List.drop_drop, e] using this
    · apply Stable.trans _ g3.stable
      have t1 : dst.take (i + (n + 1)) = dst.take (i + 1) ++ (dst.drop (i + 1)).take n := by rw [← e, List.take_add]
      have t2 : d.take (i + (n + 1)) = d.take (i + 1) ++ (d.drop (i + 1)).take n := by rw [← e, List.take_add]
      rw [t1, t2, h2]
      exact h3.stable.append (.refl _)

end Verif.Sort
