import Verif.MergeFile.Swap
/-! # C72, C73: merging three texts -/
namespace Verif.MergeFile
open Verif.Patch (Change splitLines changesOf)
open Verif.Patch.Spec (Lines)
open Spec (Merged Compatible Text styleFor dataFor Path Mode)

theorem text_isBinary {i : Input} : isBinary i.data = false ↔ Text i := by
  unfold isBinary Text
  simp only [Bool.or_eq_false_iff, decide_eq_false_iff_not]
  rw [← Bool.not_eq_true, List.contains_iff_mem]
  constructor
  · intro h; exact ⟨h.2, by omega⟩
  · intro h; exact ⟨by omega, h.1⟩

theorem dataOf_normalize (a : Option Input) : dataOf (a.map normalize) = dataFor a := by cases a <;> rfl

theorem fromInputs_text {diff : Bool → List Bytes → List Bytes → Res (List Change)} {o : Options} {ancestor : Option Input} {ours theirs : Input} (ta : ∀ a, ancestor = some a → Text a) (tu : Text ours)
    (tt : Text theirs) : mergeFileWith diff o ancestor ours theirs = mergeText diff o (ancestor.map normalize) (normalize ours) (normalize theirs) := by
  unfold mergeFileWith fromInputs
  rw [if_neg]
  have h1 : isBinary (dataOf (ancestor.map normalize)) = false := by
    cases ancestor with
    | none => rfl
    | some a => exact text_isBinary.2 (ta a rfl)
  have h2 := text_isBinary.2 tu
  have h3 := text_isBinary.2 tt
  simp only [normalize]
  rw [h1, h2, h3]
  simp

theorem style_eq (o : Options) (ancestor : Option Input) (ours theirs : Input) : styleS (paramsOf o (ancestor.map normalize) (normalize ours) (normalize theirs)) = styleFor o ancestor ours theirs := by
  have hl : ∀ (l p : Option Bytes), label l (label p (some b!"file.txt")) = some (Spec.nameFor l p) := by intro l p; cases l <;> cases p <;> rfl
  have hst : decide (styleOf o = 1 ∨ styleOf o = 2) = (o.diff3 || o.zdiff3) := by
    unfold styleOf; cases o.diff3 <;> cases o.zdiff3 <;> rfl
  have ha : (paramsOf o (ancestor.map normalize) (normalize ours) (normalize theirs)).ancestor = (ancestor.map fun a => Spec.nameFor o.ancestorLabel a.path) := by
    cases ancestor with
    | none => rfl
    | some a => simp [paramsOf, normalize, hl]
  unfold styleS
  rw [ha]
  simp only [styleFor, paramsOf, Params.marks, normalize, hl, hst, favorOf]

theorem path_ok (ancestor : Option Input) (ours theirs : Input) : Path ours theirs ancestor (bestPath (pathOf (ancestor.map normalize)) (normalize ours).path (normalize theirs).path) := by
  have hl : ∀ i : Input, (normalize i).path = some (Spec.pathFor i) := by intro i; simp only [normalize, Spec.pathFor]; cases i.path <;> rfl
  cases ancestor with
  | none =>
    simp only [Option.map_none, pathOf, bestPath, hl, Option.isSome_some, Bool.true_and, decide_eq_true_eq, Option.some.injEq]
    split
    · exact .new ‹_›
    · exact .newOther ‹_›
  | some a =>
    simp only [Option.map_some, pathOf, bestPath, hl, bestPathOf, Option.some.injEq]
    split
    · exact .theirs ‹_›
    · split
      · exact .ours ‹_› ‹_›
      · exact .none ‹_› ‹_›

theorem mode_ok (ancestor : Option Input) (ours theirs : Input) : Mode ours theirs ancestor (bestMode (modeOf (ancestor.map normalize)) (normalize ours).mode (normalize theirs).mode) := by
  have hm : ∀ i : Input, (normalize i).mode = Spec.modeFor i := fun i => rfl
  have h0 : ∀ i : Input, Spec.modeFor i ≠ 0 := by intro i; unfold Spec.modeFor; split <;> omega
  cases ancestor with
  | none =>
    simp only [Option.map_none, modeOf, bestMode, hm, if_true]
    split
    · exact .newExec ‹_›
    · exact .new (by omega) (by omega)
  | some a =>
    simp only [Option.map_some, modeOf, bestMode, hm]
    rw [if_neg (h0 a), if_pos ⟨h0 _, h0 _⟩]
    split
    · exact .theirs (Eq.symm ‹_›)
    · exact .ours (fun h => ‹¬ _› h.symm)

theorem mergeText_eq {diff : Bool → List Bytes → List Bytes → Res (List Change)} {o : Options} {ancestor : Option Input} {ours theirs : Input} {out : Bytes} {n : Nat}
    (h : xdlMerge (diff o.minimal) (paramsOf o (ancestor.map normalize) (normalize ours) (normalize theirs)) (dataFor ancestor) ours.data theirs.data = (if 2 ^ 31 ≤ out.length then .ub else .ok (out, n))) :
    mergeText diff o (ancestor.map normalize) (normalize ours) (normalize theirs) = if 2 ^ 31 ≤ out.length then .ub else
      .ok ⟨decide (n = 0), bestPath (pathOf (ancestor.map normalize)) (normalize ours).path (normalize theirs).path, bestMode (modeOf (ancestor.map normalize)) (normalize ours).mode (normalize theirs).mode, some out⟩ := by
  unfold mergeText
  rw [dataOf_normalize, show (normalize ours).data = ours.data from rfl, show (normalize theirs).data = theirs.data from rfl, h]
  split <;> rfl

theorem data_lt {ancestor : Option Input} (ta : ∀ a, ancestor = some a → Text a) : (dataFor ancestor).length < 2 ^ 31 := by
  cases ancestor with
  | none => simp [dataFor]
  | some a => have := (ta a rfl).2; simp [dataFor]; omega

theorem text_lt {i : Input} (h : Text i) : i.data.length < 2 ^ 31 := by have := h.2; omega

/-- **Merging three texts**: with any search for differences that finds scripts, any options and any three texts (the ancestor may be missing), the three texts are common lines and hunks one after another, with
common lines between hunks, where a hunk that only one side changed shows that side, one that both changed in the same way shows that once, and one that they changed differently is a conflict and shows
as the options say; the result is exactly that text. It is automatic if and only if no conflict is left; a text of 2 GiB or more does not fit into an `int` and is undefined behaviour. -/
theorem C72_merge {diff : Bool → List Bytes → List Bytes → Res (List Change)} (hd : ∀ minimal, Spec.Finds (diff minimal)) {o : Options} (hf : o.favor ≤ 3) {ancestor : Option Input} {ours theirs : Input}
    (ta : ∀ a, ancestor = some a → Text a) (tu : Text ours) (tt : Text theirs) {lb lo lt : List Bytes} (hb : Lines lb (dataFor ancestor)) (ho : Lines lo ours.data) (ht : Lines lt theirs.data) :
    ∃ out n path mode, Merged (styleFor o ancestor ours theirs) lb lo lt out n ∧ Path ours theirs ancestor path ∧ Mode ours theirs ancestor mode ∧
      mergeFileWith diff o ancestor ours theirs = if 2 ^ 31 ≤ out.length then .ub else .ok ⟨decide (n = 0), path, mode, some out⟩ := by
  obtain ⟨_, _, out, n, _, _, h3, h4, _⟩ := xdlMerge_ok (finds_of (hd o.minimal)) (P := paramsOf o (ancestor.map normalize) (normalize ours) (normalize theirs)) hf (data_lt ta) (text_lt tu) (text_lt tt)
  rw [style_eq, ← Patch.lines_unique hb, ← Patch.lines_unique ho, ← Patch.lines_unique ht] at h3
  exact ⟨out, n, _, _, h3, path_ok ancestor ours theirs, mode_ok ancestor ours theirs, by rw [fromInputs_text ta tu tt, mergeText_eq h4]⟩

/-- **`git_merge_file`**: the same with the search that the library uses. -/
theorem C72_merge_file {o : Options} (hf : o.favor ≤ 3) {ancestor : Option Input} {ours theirs : Input} (ta : ∀ a, ancestor = some a → Text a) (tu : Text ours) (tt : Text theirs) {lb lo lt : List Bytes}
    (hb : Lines lb (dataFor ancestor)) (ho : Lines lo ours.data) (ht : Lines lt theirs.data) :
    ∃ out n path mode, Merged (styleFor o ancestor ours theirs) lb lo lt out n ∧ Path ours theirs ancestor path ∧ Mode ours theirs ancestor mode ∧
      mergeFile o ancestor ours theirs = if 2 ^ 31 ≤ out.length then .ub else .ok ⟨decide (n = 0), path, mode, some out⟩ :=
  C72_merge (diff := fun minimal => Xdiff.script minimal false) (fun minimal => finds_script minimal false) hf ta tu tt hb ho ht

/-- **Files that are not texts** are not merged: the result is the favored side as a whole, or nothing. -/
theorem C72_binary {o : Options} {ancestor : Option Input} {ours theirs : Input} (h : ¬ ((∀ a, ancestor = some a → Text a) ∧ Text ours ∧ Text theirs)) :
    mergeFile o ancestor ours theirs = .ok (if o.favor = 1 then ⟨true, some (Spec.pathFor ours), Spec.modeFor ours, some ours.data⟩ else
      if o.favor = 2 then ⟨true, some (Spec.pathFor theirs), Spec.modeFor theirs, some theirs.data⟩ else ⟨false, none, 0, none⟩) := by
  have hl : ∀ i : Input, (normalize i).path = some (Spec.pathFor i) := by intro i; simp only [normalize, Spec.pathFor]; cases i.path <;> rfl
  unfold mergeFile mergeFileWith fromInputs
  rw [if_pos]
  · unfold mergeBinary favoredFile
    rw [hl, hl]
    rfl
  · by_contra hn
    rw [Bool.not_eq_true, Bool.or_eq_false_iff, Bool.or_eq_false_iff] at hn
    refine h ⟨?_, text_isBinary.1 hn.1.2, text_isBinary.1 hn.2⟩
    intro a ha
    subst ha
    exact text_isBinary.1 hn.1.1

/-! ## C73: merges without conflicts -/

theorem result_of {o : Options} {ancestor : Option Input} {ours theirs : Input} (ta : ∀ a, ancestor = some a → Text a) (tu : Text ours) (tt : Text theirs) {out : Bytes} (hl : out.length < 2 ^ 31)
    (h : xdlMerge (Xdiff.script o.minimal false) (paramsOf o (ancestor.map normalize) (normalize ours) (normalize theirs)) (dataFor ancestor) ours.data theirs.data = .ok (out, 0)) :
    ∃ path mode, mergeFile o ancestor ours theirs = .ok ⟨true, path, mode, some out⟩ := by
  unfold mergeFile
  rw [fromInputs_text ta tu tt, mergeText_eq (out := out) (n := 0) (by rw [if_neg (by omega)]; exact h), if_neg (by omega)]
  exact ⟨_, _, rfl⟩

theorem same_script (minimal : Bool) {a b : Bytes} (ha : a.length < 2 ^ 31) (hb : b.length < 2 ^ 31) : Xdiff.script minimal false (splitLines a) (splitLines b) = .ok [] ↔ a = b := by
  have := lines_length a
  have := lines_length b
  rw [Xdiff.C54_same minimal false (by omega)]
  exact ⟨split_inj, fun h => h ▸ rfl⟩

/-- **We changed nothing**: the result is their text, without conflicts. -/
theorem C73_theirs {o : Options} {ancestor : Option Input} {ours theirs : Input} (ta : ∀ a, ancestor = some a → Text a) (tu : Text ours) (tt : Text theirs) (h : ours.data = dataFor ancestor) :
    ∃ path mode, mergeFile o ancestor ours theirs = .ok ⟨true, path, mode, some theirs.data⟩ := by
  refine result_of ta tu tt (text_lt tt) ?_
  obtain ⟨xs2, h2, _⟩ := finds_of (finds_script o.minimal false) (splitLines (dataFor ancestor)) (splitLines theirs.data)
    (by have := lines_length (dataFor ancestor); have := lines_length theirs.data; have := data_lt ta; have := text_lt tt; omega)
  unfold xdlMerge
  rw [(same_script o.minimal (data_lt ta) (text_lt tu)).2 h.symm, Res.bind_ok, h2, Res.bind_ok, if_pos rfl]

/-- **They changed nothing**: the result is our text, without conflicts. -/
theorem C73_ours {o : Options} {ancestor : Option Input} {ours theirs : Input} (ta : ∀ a, ancestor = some a → Text a) (tu : Text ours) (tt : Text theirs) (h : theirs.data = dataFor ancestor) :
    ∃ path mode, mergeFile o ancestor ours theirs = .ok ⟨true, path, mode, some ours.data⟩ := by
  refine result_of ta tu tt (text_lt tu) ?_
  obtain ⟨xs1, h1, _⟩ := finds_of (finds_script o.minimal false) (splitLines (dataFor ancestor)) (splitLines ours.data)
    (by have := lines_length (dataFor ancestor); have := lines_length ours.data; have := data_lt ta; have := text_lt tu; omega)
  unfold xdlMerge
  rw [(same_script o.minimal (data_lt ta) (text_lt tt)).2 h.symm, h1]
  simp only [Res.bind_ok]
  by_cases e : xs1 = []
  · subst e
    have := (same_script o.minimal (data_lt ta) (text_lt tu)).1 h1
    rw [if_pos rfl, h, this]
  · rw [if_neg e, if_pos trivial]

/-- **Both made the same changes**: the result is the text that both have, without conflicts. -/
theorem C73_same {o : Options} {ancestor : Option Input} {ours theirs : Input} (ta : ∀ a, ancestor = some a → Text a) (tu : Text ours) (h : theirs.data = ours.data) :
    ∃ path mode, mergeFile o ancestor ours theirs = .ok ⟨true, path, mode, some ours.data⟩ := by
  have tt : Text theirs := by unfold Text; rw [h]; exact tu
  refine result_of ta tu tt (text_lt tu) ?_
  rw [h]
  exact xdlMerge_same (finds_of (finds_script o.minimal false)) _ (data_lt ta) (text_lt tu)

/-- **Changes that do not meet do not conflict**: if between any of our changes and any of theirs there is a line of the ancestor, or the changes are the same, the merge is without conflicts, for all options.
When conflicts are shown with the ancestor and not resolved by a favor, only then. -/
theorem C73_clean {o : Options} (hf : o.favor ≤ 3) {ancestor : Option Input} {ours theirs : Input} (ta : ∀ a, ancestor = some a → Text a) (tu : Text ours) (tt : Text theirs) :
    ∃ xs1 xs2, Xdiff.script o.minimal false (splitLines (dataFor ancestor)) (splitLines ours.data) = .ok xs1 ∧ Xdiff.script o.minimal false (splitLines (dataFor ancestor)) (splitLines theirs.data) = .ok xs2 ∧
      ∀ r, mergeFile o ancestor ours theirs = .ok r → ((∀ x ∈ xs1, ∀ y ∈ xs2, Compatible (splitLines ours.data) (splitLines theirs.data) x y) → r.automergeable = true) ∧
        (o.favor = 0 → o.diff3 = true ∨ o.zdiff3 = true → r.automergeable = true → ∀ x ∈ xs1, ∀ y ∈ xs2, Compatible (splitLines ours.data) (splitLines theirs.data) x y) := by
  obtain ⟨xs1, xs2, out, n, h1, h2, _, h4, h5, h6⟩ := xdlMerge_ok (finds_of (finds_script o.minimal false)) (P := paramsOf o (ancestor.map normalize) (normalize ours) (normalize theirs)) hf (data_lt ta) (text_lt tu) (text_lt tt)
  refine ⟨xs1, xs2, h1, h2, ?_⟩
  intro r hr
  unfold mergeFile at hr
  rw [fromInputs_text ta tu tt, mergeText_eq h4] at hr
  split at hr
  · cases hr
  · cases hr
    refine ⟨fun h => by simpa using h5 h, fun hf hs ha => h6 hf ?_ (by simpa using ha)⟩
    show styleOf o = 1 ∨ styleOf o = 2
    unfold styleOf
    rcases hs with hs | hs <;> cases hz : o.zdiff3 <;> simp_all

/-- **Which side is ours does not matter** to the text of a merge whose changes do not meet. -/
theorem C73_symmetric {o o' : Options} (hm : o'.minimal = o.minimal) {ancestor : Option Input} {ours theirs : Input} (ta : ∀ a, ancestor = some a → Text a) (tu : Text ours) (tt : Text theirs) {xs1 xs2 : List Change}
    (h1 : Xdiff.script o.minimal false (splitLines (dataFor ancestor)) (splitLines ours.data) = .ok xs1) (h2 : Xdiff.script o.minimal false (splitLines (dataFor ancestor)) (splitLines theirs.data) = .ok xs2)
    (hc : ∀ x ∈ xs1, ∀ y ∈ xs2, Compatible (splitLines ours.data) (splitLines theirs.data) x y) :
    ∃ out p m p' m', mergeFile o ancestor ours theirs = (if 2 ^ 31 ≤ out.length then .ub else .ok ⟨true, p, m, some out⟩) ∧
      mergeFile o' ancestor theirs ours = (if 2 ^ 31 ≤ out.length then .ub else .ok ⟨true, p', m', some out⟩) := by
  obtain ⟨out, h3, h4⟩ := xdlMerge_swap (finds_of (finds_script o.minimal false)) (paramsOf o (ancestor.map normalize) (normalize ours) (normalize theirs))
    (paramsOf o' (ancestor.map normalize) (normalize theirs) (normalize ours)) (data_lt ta) (text_lt tu) (text_lt tt) h1 h2 hc
  have e1 := mergeText_eq (diff := fun minimal => Xdiff.script minimal false) h3
  rw [← hm] at h4
  have e2 := mergeText_eq (diff := fun minimal => Xdiff.script minimal false) h4
  refine ⟨out, bestPath (pathOf (ancestor.map normalize)) (normalize ours).path (normalize theirs).path, bestMode (modeOf (ancestor.map normalize)) (normalize ours).mode (normalize theirs).mode,
    bestPath (pathOf (ancestor.map normalize)) (normalize theirs).path (normalize ours).path, bestMode (modeOf (ancestor.map normalize)) (normalize theirs).mode (normalize ours).mode, ?_, ?_⟩
  · unfold mergeFile; rw [fromInputs_text ta tu tt, e1]; rfl
  · unfold mergeFile; rw [fromInputs_text ta tt tu, e2]; rfl

/-! ## Examples -/

/-- the options that are not said -/
def noOptions : Options := ⟨none, none, none, 0, false, false, false, false, 0⟩

/-- a file of the given text -/
def file (t : Bytes) : Input := ⟨some b!"f", 0o100644, t⟩

/-- changes that do not meet -/
example : mergeFile noOptions (some (file b!"a\nb\nc\nd\ne\n")) (file b!"A\nb\nc\nd\ne\n") (file b!"a\nb\nc\nd\nE\nf") = .ok ⟨true, some b!"f", 0o100644, some b!"A\nb\nc\nd\nE\nf"⟩ := by decide +kernel

/-- a conflict; the common line at its start is taken out of it -/
example : mergeFile noOptions (some (file b!"a\nb\nc\n")) (file b!"a\nx\ny\nc\n") (file b!"a\nx\nz\nc\n") =
    .ok ⟨false, some b!"f", 0o100644, some b!"a\nx\n<<<<<<< f\ny\n=======\nz\n>>>>>>> f\nc\n"⟩ := by decide +kernel

/-- with the ancestor -/
example : mergeFile { noOptions with diff3 := true, ourLabel := some b!"us" } (some (file b!"a\nb\nc\n")) (file b!"a\nx\ny\nc\n") (file b!"a\nx\nz\nc\n") =
    .ok ⟨false, some b!"f", 0o100644, some b!"a\n<<<<<<< us\nx\ny\n||||||| f\nb\n=======\nx\nz\n>>>>>>> f\nc\n"⟩ := by decide +kernel

/-- with the ancestor, common lines at the ends taken out -/
example : mergeFile { noOptions with zdiff3 := true } (some (file b!"a\nb\nc\n")) (file b!"a\nx\ny\nc\n") (file b!"a\nx\nz\nc\n") =
    .ok ⟨false, some b!"f", 0o100644, some b!"a\nx\n<<<<<<< f\ny\n||||||| f\nb\n=======\nz\n>>>>>>> f\nc\n"⟩ := by decide +kernel

/-- both sides, with line ends of the ancestor -/
example : mergeFile { noOptions with favor := 3 } (some (file b!"a\r\nb")) (file b!"a\r\nx") (file b!"a\r\nz") = .ok ⟨true, some b!"f", 0o100644, some b!"a\r\nx\r\nz"⟩ := by decide +kernel

/-- the hypotheses of the theorems -/
example : Text (file b!"a\n") ∧ (∀ a, some (file b!"b\n") = some a → Text a) ∧ Lines [b!"a\n", b!"b"] b!"a\nb" := by
  refine ⟨by unfold Text; decide +kernel, ?_, by unfold Lines; decide +kernel⟩
  intro a h
  cases h
  unfold Text
  decide +kernel

/-- changes that do not meet: the hypothesis of `C73_symmetric` -/
example : ∃ xs1 xs2, Xdiff.script false false [b!"a\n", b!"b\n", b!"c\n"] [b!"A\n", b!"b\n", b!"c\n"] = .ok xs1 ∧ Xdiff.script false false [b!"a\n", b!"b\n", b!"c\n"] [b!"a\n", b!"b\n", b!"C\n"] = .ok xs2 ∧
    ∀ x ∈ xs1, ∀ y ∈ xs2, Compatible [b!"A\n", b!"b\n", b!"c\n"] [b!"a\n", b!"b\n", b!"C\n"] x y := by
  refine ⟨[⟨0, 1, 0, 1⟩], [⟨2, 1, 2, 1⟩], by decide +kernel, by decide +kernel, ?_⟩
  unfold Compatible
  decide +kernel

end Verif.MergeFile
