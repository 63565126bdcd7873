import Verif.MergeFile.Whole
/-! # Merges without conflicts do not depend on which side is ours -/
namespace Verif.MergeFile
open Verif.Patch (Change splitLines changesOf)
open Spec (Compatible)

theorem EndedF.swap {F : Files} (h : EndedF F) : EndedF (swapF F) := ⟨h.base, h.theirs, h.ours⟩

/-- what `fill` writes when it has written the first side up to `i` -/
def Writes (F : Files) (ms : List M) (c : Nat) (body : Bytes) : Prop :=
  ∀ (P : Params) (i : Nat), i ≤ c → ∃ cs, fill F P ms i = .ok cs ∧ (cs.map Chunk.bytes).flatten = (slice F.ours i (c - i)).flatten ++ body

theorem favored_clean {P : Params} {mode : Nat} (h : mode ≠ 0) : favored P mode = mode := by
  unfold favored
  rw [if_neg (by omega)]

theorem slice_ext {X : List Bytes} {i c k : Nat} (h : i ≤ c) : (slice X i (c + k - i)).flatten = (slice X i (c - i)).flatten ++ (slice X c k).flatten := by
  rw [show c + k - i = (c - i) + k by omega, slice_add, show i + (c - i) = c by omega, List.flatten_append]

theorem writes_plain {F : Files} (he : EndedF F) {m : M} {ms : List M} {c k k1 b k2 : Nat} {out body : Bytes} (d : m.i1 = (c + k : Nat)) (e : m.i2 = b) (g : m.chg1 = k1) (j : m.chg2 = k2)
    (ho : c + k + k1 ≤ F.ours.length) (ht : b + k2 ≤ F.theirs.length) (hm : m.mode = 1 ∧ out = (slice F.ours (c + k) k1).flatten ∨ m.mode = 2 ∧ out = (slice F.theirs b k2).flatten)
    (hw : Writes F ms (c + k + k1) body) : Writes F (m :: ms) c ((slice F.ours c k).flatten ++ (out ++ body)) := by
  intro P i hi
  simp only [fill]
  have hm0 : m.mode ≠ 0 := by omega
  rw [favored_clean hm0, if_neg hm0, if_pos (by omega), show m.i1 + m.chg1 = ((c + k + k1 : Nat) : Int) by omega]
  obtain ⟨cs', h1, h2⟩ := hw P (c + k + k1) (Nat.le_refl _)
  obtain ⟨ch, out', h3, h4, h5, h6, _⟩ := plainHunk_ok he (mode := m.mode) (m := m) (i := i) d e g j (by omega) ho ht (by omega)
  rw [h3, Res.bind_ok, h1, Res.bind_ok]
  have : out' = out := by
    rcases hm with ⟨a, b⟩ | ⟨a, b⟩
    · rw [h5 a, b]
    · rw [h6 a, b]
  refine ⟨_, rfl, ?_⟩
  rw [List.map_append, List.flatten_append, h4, h2, Nat.sub_self, slice_zero, slice_ext hi, this]
  simp

theorem writes_same {F : Files} {m : M} {ms : List M} {c k k1 : Nat} {body : Bytes} (hm : m.mode = 4) (hw : Writes F ms (c + k + k1) body) :
    Writes F (m :: ms) c ((slice F.ours c k).flatten ++ ((slice F.ours (c + k) k1).flatten ++ body)) := by
  intro P i hi
  simp only [fill]
  rw [favored_clean (by omega), hm]
  rw [if_neg (by decide), if_neg (by decide)]
  obtain ⟨cs, h1, h2⟩ := hw P i (by omega)
  refine ⟨cs, h1, ?_⟩
  rw [h2, slice_ext (by omega), slice_ext hi]
  simp

theorem fill_swap {F : Files} (he : EndedF F) {d3 f : Bool} {c0 c1 c2 : Nat} {ms : List M} (h : Laid F d3 f c0 c1 c2 ms) (hno : NoConflict ms) :
    ∃ body, Writes F ms c1 body ∧ Writes (swapF F) (ms.map swapM) c2 body := by
  induction h with
  | @nil f c0 c1 c2 k a b c d =>
    refine ⟨(slice F.ours c1 k).flatten, ?_, ?_⟩
    · intro P i hi
      simp only [fill]
      rw [recsCopy_ok (a := i) (b := F.ours.length - i) rfl (by omega) (by omega), Res.bind_ok]
      refine ⟨_, rfl, ?_⟩
      rw [← slice_ext hi, show c1 + k = F.ours.length by omega]
      simp [Chunk.bytes]
    · intro P i hi
      rw [(al_iff (by omega) (by omega)).1 d]
      simp only [fill, List.map_nil]
      have hl : (swapF F).ours = F.theirs := rfl
      rw [hl, recsCopy_ok (a := i) (b := F.theirs.length - i) rfl (by omega) (by omega), Res.bind_ok]
      refine ⟨_, rfl, ?_⟩
      rw [← slice_ext hi, show c2 + k = F.theirs.length by omega]
      simp [Chunk.bytes]
  | @cons f c0 c1 c2 k n0 nb k1 k2 ms m a b c d e g j l o t ih =>
    rw [noConflict_cons] at hno
    obtain ⟨body, w1, w2⟩ := ih hno.2
    have hb := t.bound
    have al := (al_iff (by omega) (by omega)).1 b
    rw [List.map_cons]
    rcases o with o | ⟨o, x, y, o1, o2, o3, o4⟩ | ⟨o, x, y, o1, o2, o3, o4⟩ | ⟨o, x, y, z, o1, o2, o3, o4, o5⟩
    · exact absurd o hno.1
    · refine ⟨(slice F.ours c1 k).flatten ++ ((slice F.ours (c1 + k) k1).flatten ++ body), ?_, ?_⟩
      · exact writes_plain he d e g j (by omega) (by omega) (.inl ⟨o, rfl⟩) w1
      · rw [al]
        exact writes_plain (F := swapF F) he.swap (m := swapM m) e d j g (by simp only [swapF]; omega) (by simp only [swapF]; omega) (.inr ⟨by simp [swapM, swapMode, o], rfl⟩) w2
    · refine ⟨(slice F.ours c1 k).flatten ++ ((slice F.theirs (c2 + k) k2).flatten ++ body), ?_, ?_⟩
      · exact writes_plain he d e g j (by omega) (by omega) (.inr ⟨o, rfl⟩) w1
      · rw [al]
        exact writes_plain (F := swapF F) he.swap (m := swapM m) e d j g (by simp only [swapF]; omega) (by simp only [swapF]; omega) (.inl ⟨by simp [swapM, swapMode, o], rfl⟩) w2
    · have : x = c1 + k ∧ y = c2 + k ∧ z = k1 ∧ z = k2 := by omega
      obtain ⟨rfl, rfl, rfl, rfl⟩ := this
      refine ⟨(slice F.ours c1 k).flatten ++ ((slice F.ours (c1 + k) z).flatten ++ body), writes_same o w1, ?_⟩
      rw [al, (al_iff (by omega) (by omega)).1 o5]
      exact writes_same (F := swapF F) (m := swapM m) (by simp [swapM, swapMode, o]) w2

theorem refined_noConflict {F : Files} {diff : List Bytes → List Bytes → Res (List Change)} {P : Params} {ms : List M} (h : NoConflict ms) : refined diff F P ms = .ok ms := by
  unfold refined
  split
  · clear * - h
    induction ms with
    | nil => rfl
    | cons m ms ih =>
      rw [noConflict_cons] at h
      simp only [refineZ]
      rw [if_pos h.1, ih h.2, Res.bind_ok]
  · split
    · rfl
    · rw [refine_noConflict ms h, Res.bind_ok, simplify_noConflict ms h]

theorem filter_noConflict {P : Params} {ms : List M} (h : NoConflict ms) : (ms.filter fun m => decide (favored P m.mode = 0)).length = 0 := noConflict_count.1 h

/-- the merge and the merge with the sides swapped, when the changes do not meet -/
theorem doMerge_swap {diff : List Bytes → List Bytes → Res (List Change)} (P P' : Params) {base ours theirs : Bytes} {xs1 xs2 : List Change}
    (r1 : Rem (splitLines base) (splitLines ours) false 0 0 xs1) (r2 : Rem (splitLines base) (splitLines theirs) false 0 0 xs2)
    (hc : ∀ x ∈ xs1, ∀ y ∈ xs2, Compatible (splitLines ours) (splitLines theirs) x y) :
    ∃ out, doMerge diff (filesOf base ours theirs) P xs1 xs2 = (if 2 ^ 31 ≤ out.length then .ub else .ok (out, 0)) ∧
      doMerge diff (filesOf base theirs ours) P' xs2 xs1 = (if 2 ^ 31 ≤ out.length then .ub else .ok (out, 0)) := by
  obtain ⟨ms, h1, h2, h3⟩ := overlay_laid (F := filesOf base ours theirs) r1 r2
  rw [apart_iff (fun x hx => (rem_bounds r1 x hx).2) (fun x hx => (rem_bounds r2 x hx).2)] at h3
  have hno := h3.2 hc
  obtain ⟨body, w1, w2⟩ := fill_swap (endedF_of base ours theirs) h2 hno
  obtain ⟨cs1, f1, g1⟩ := w1 P 0 (Nat.le_refl _)
  obtain ⟨cs2, f2, g2⟩ := w2 P' 0 (Nat.le_refl _)
  rw [Nat.sub_self, slice_zero] at g1 g2
  rw [Int.natCast_zero] at f1 f2
  simp only [List.flatten_nil, List.nil_append] at g1 g2
  refine ⟨body, ?_, ?_⟩
  · unfold doMerge
    rw [h1, Res.bind_ok, refined_noConflict hno, Res.bind_ok, f1, Res.bind_ok, output_eq, g1]
    split
    · rfl
    · rw [Res.bind_ok, filter_noConflict hno]
  · unfold doMerge
    have hs := overlay_swap (filesOf base ours theirs) (xs1.length + xs2.length) xs1 xs2 none
    rw [h1] at hs
    have hF : swapF (filesOf base ours theirs) = filesOf base theirs ours := rfl
    rw [hF] at hs f2
    have hno' := noConflict_swap.2 hno
    rw [Nat.add_comm, show (none : Option M) = none.map swapM from rfl, hs]
    simp only [swapR, Res.bind_ok]
    rw [refined_noConflict hno', Res.bind_ok, f2, Res.bind_ok, output_eq, g2]
    split
    · rfl
    · rw [Res.bind_ok, filter_noConflict hno']

theorem compatible_swap {ours theirs : List Bytes} {x y : Change} (h : Compatible ours theirs x y) : Compatible theirs ours y x := by
  rcases h with h | h | ⟨a, b, c, d⟩
  · exact .inr (.inl h)
  · exact .inl h
  · exact .inr (.inr ⟨a.symm, b.symm, c.symm, d.symm⟩)

theorem xdlMerge_swap {diff : List Bytes → List Bytes → Res (List Change)} (hd : Finds diff) (P P' : Params) {base ours theirs : Bytes} (hb : base.length < 2 ^ 31) (ho : ours.length < 2 ^ 31)
    (ht : theirs.length < 2 ^ 31) {xs1 xs2 : List Change} (h1 : diff (splitLines base) (splitLines ours) = .ok xs1) (h2 : diff (splitLines base) (splitLines theirs) = .ok xs2)
    (hc : ∀ x ∈ xs1, ∀ y ∈ xs2, Compatible (splitLines ours) (splitLines theirs) x y) :
    ∃ out, xdlMerge diff P base ours theirs = (if 2 ^ 31 ≤ out.length then .ub else .ok (out, 0)) ∧ xdlMerge diff P' base theirs ours = (if 2 ^ 31 ≤ out.length then .ub else .ok (out, 0)) := by
  have lb := lines_length base
  have lo := lines_length ours
  have lt := lines_length theirs
  obtain ⟨xs1', h1', r1⟩ := hd (splitLines base) (splitLines ours) (by omega)
  obtain ⟨xs2', h2', r2⟩ := hd (splitLines base) (splitLines theirs) (by omega)
  rw [h1] at h1'
  rw [h2] at h2'
  cases h1'
  cases h2'
  unfold xdlMerge
  rw [h1, h2]
  simp only [Res.bind_ok]
  by_cases e1 : xs1 = []
  · subst e1
    refine ⟨theirs, by rw [if_pos rfl, if_neg (by omega)], ?_⟩
    by_cases e2 : xs2 = []
    · subst e2
      have := split_inj ((rem_nil r1).symm.trans (rem_nil r2))
      rw [if_pos rfl, this, if_neg (by omega)]
    · rw [if_neg e2, if_pos rfl, if_neg (by omega)]
  · rw [if_neg e1]
    by_cases e2 : xs2 = []
    · subst e2
      exact ⟨ours, by rw [if_pos rfl, if_neg (by omega)], by rw [if_pos rfl, if_neg (by omega)]⟩
    · rw [if_neg e2, if_neg e2, if_neg e1]
      exact doMerge_swap P P' r1 r2 hc

/-! ## Both sides the same -/

theorem overlay_same {F : Files} (hF : F.theirs = F.ours) : ∀ (xs : List Change) (fuel : Nat), xs.length ≤ fuel → (∀ x ∈ xs, x.i2 + x.chg2 ≤ F.ours.length) → overlay F fuel xs xs none = .ok [] := by
  intro xs
  induction xs with
  | nil => intro fuel _ _; cases fuel <;> rfl
  | cons x xs ih =>
    intro fuel hfuel hb
    cases fuel with
    | zero => simp at hfuel
    | succ fuel =>
      simp only [overlay]
      have hx := hb x List.mem_cons_self
      rw [if_neg (by omega), if_neg (by omega)]
      rcases identical_ok (F := F) (x1 := x) (x2 := x) hx (by rw [hF]; exact hx) with ⟨h, _⟩ | ⟨_, h⟩
      · rw [h, Res.bind_ok, if_pos rfl]
        unfold advance
        rw [if_pos (Nat.le_refl _)]
        exact ih fuel (by simpa using hfuel) (fun y hy => hb y (List.mem_cons_of_mem _ hy))
      · exact absurd ⟨rfl, rfl, rfl, by rw [hF]; exact ⟨hx, hx, fun _ _ => rfl⟩⟩ h

theorem xdlMerge_same {diff : List Bytes → List Bytes → Res (List Change)} (hd : Finds diff) (P : Params) {base ours : Bytes} (hb : base.length < 2 ^ 31) (ho : ours.length < 2 ^ 31) :
    xdlMerge diff P base ours ours = .ok (ours, 0) := by
  have lb := lines_length base
  have lo := lines_length ours
  obtain ⟨xs, h1, r⟩ := hd (splitLines base) (splitLines ours) (by omega)
  unfold xdlMerge
  rw [h1]
  simp only [Res.bind_ok]
  by_cases e : xs = []
  · rw [if_pos e]
  · rw [if_neg e, if_neg e]
    unfold doMerge
    rw [overlay_same rfl xs _ (by omega) (fun x hx => (rem_bounds r x hx).2), Res.bind_ok, refined_noConflict (by simp [NoConflict]), Res.bind_ok]
    simp only [fill]
    rw [recsCopy_ok (l := splitLines ours) (i := 0) (c := ((splitLines ours).length : Int) - 0) (a := 0) (b := (splitLines ours).length) rfl (by omega) (by omega), Res.bind_ok, Res.bind_ok, output_eq]
    have : slice (splitLines ours) 0 (splitLines ours).length = splitLines ours := by simp [slice]
    simp only [List.map_cons, List.map_nil, Chunk.bytes, this, Bool.false_eq_true, if_false, List.append_nil, List.flatten_cons, List.flatten_nil, Patch.splitLines_flatten]
    rw [if_neg (by omega)]
    rfl

end Verif.MergeFile
