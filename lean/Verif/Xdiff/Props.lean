import Verif.Xdiff.Lemmas8
import Verif.Patch.Props
/-! # C54: the differences of two texts -/
namespace Verif.Xdiff
open Spec Verif.Patch Verif.Patch.Spec

/-- For any two files the comparison ends (no loop goes on, nothing is read that was not written, none of the checks for bugs fails), whatever the flags, and what it gives is a
script of changes from one to the other: the files are `same ++ del ++ same ++ ...` and `same ++ add ++ same ++ ...` with the numbers of the lines that the changes
say; no change is empty, and no two are adjacent. -/
theorem C54_script (minimal indent : Bool) {old new : List Bytes} (hsz : old.length + new.length < 2 ^ 62) :
    ∃ steps tail, script minimal indent old new = .ok (changesOf 0 0 steps) ∧ scriptOld steps tail = old ∧ scriptNew steps tail = new ∧ (∀ s ∈ steps, s.del ≠ [] ∨ s.add ≠ []) ∧
      (∀ s ∈ steps.tail, s.same ≠ []) := by
  obtain ⟨steps, tail, h1, h2, h3, h4, h5, _⟩ := script_eq minimal indent hsz
  exact ⟨steps, tail, h1, h2, h3, h4, h5⟩

/-- There are no changes exactly if the files are the same. -/
theorem C54_same (minimal indent : Bool) {old new : List Bytes} (hsz : old.length + new.length < 2 ^ 62) : script minimal indent old new = .ok [] ↔ old = new := by
  obtain ⟨steps, tail, h1, h2, h3, h4, h5, h6, _⟩ := script_eq minimal indent hsz
  rw [h1, ← h6]
  cases steps with
  | nil => exact ⟨fun _ => rfl, fun _ => rfl⟩
  | cons s ss => constructor <;> intro h <;> cases h

/-- how many lines the changes remove and add -/
def deleted (cs : List Change) : Nat := (cs.map Change.chg1).sum
def added (cs : List Change) : Nat := (cs.map Change.chg2).sum

theorem deleted_eq : ∀ (steps : List Step) (tail : List Bytes) (p1 p2 : Nat), deleted (changesOf p1 p2 steps) + (common steps tail).length = (scriptOld steps tail).length := by
  intro steps
  induction steps with
  | nil => intro tail p1 p2; simp [deleted, changesOf, common, scriptOld]
  | cons s ss ih =>
    intro tail p1 p2
    have := ih tail (p1 + s.same.length + s.del.length) (p2 + s.same.length + s.add.length)
    simp only [deleted, changesOf, common, scriptOld, List.map_cons, List.sum_cons, List.length_append] at *
    omega

theorem added_eq : ∀ (steps : List Step) (tail : List Bytes) (p1 p2 : Nat), added (changesOf p1 p2 steps) + (common steps tail).length = (scriptNew steps tail).length := by
  intro steps
  induction steps with
  | nil => intro tail p1 p2; simp [added, changesOf, common, scriptNew]
  | cons s ss ih =>
    intro tail p1 p2
    have := ih tail (p1 + s.same.length + s.del.length) (p2 + s.same.length + s.add.length)
    simp only [added, changesOf, common, scriptNew, List.map_cons, List.sum_cons, List.length_append] at *
    omega

/-- What is the same at the beginning and at the end of both files is not counted as changed: however the files are `p ++ x ++ s` and `p ++ y ++ s`, no more lines are removed than
`x` has, and no more are added than `y` has. So lines that are inserted at one place (`x = []`) are the only ones that are added, and nothing is removed. -/
theorem C54_bound (minimal indent : Bool) {p x y s : List Bytes} (hsz : (p ++ x ++ s).length + (p ++ y ++ s).length < 2 ^ 62) :
    ∃ cs, script minimal indent (p ++ x ++ s) (p ++ y ++ s) = .ok cs ∧ deleted cs ≤ x.length ∧ added cs ≤ y.length ∧ deleted cs + y.length = added cs + x.length := by
  obtain ⟨steps, tail, h1, h2, h3, _, _, _, h7⟩ := script_eq minimal indent hsz
  refine ⟨_, h1, ?_⟩
  have a := deleted_eq steps tail 0 0
  have b := added_eq steps tail 0 0
  have c := h7 p x y s rfl rfl
  rw [h2] at a
  rw [h3] at b
  simp only [List.length_append] at a b
  omega

/-- **Diff and apply**: for any two texts of fewer than 2^30 lines, any flags, context of at least one line, distance between hunks and lines of functions, the hunks of the difference of
the texts, applied to the old text, give the new one. -/
theorem C54_apply (minimal indent : Bool) {ctx : Nat} (hctx : 1 ≤ ctx) (inter : Nat) (funcs : Change → Bytes) {old new : Bytes} (lo : (splitLines old).length < 2 ^ 30)
    (ln : (splitLines new).length < 2 ^ 30) : ∃ hs hs', diffText minimal indent ctx inter funcs old new = .ok hs ∧ applyHunks (fun _ => 0) old hs = .ok (new, hs') := by
  obtain ⟨steps, tail, h1, h2, h3, h4, h5, _⟩ := script_eq minimal indent (old := splitLines old) (new := splitLines new) (by omega)
  obtain ⟨hs, hs', e1, e2⟩ := C47_diff (ctx := ctx) (inter := inter) (funcs := funcs) (steps := steps) (tail := tail) (old := old) (new := new) (.inl hctx)
    (by rw [h2]; exact splitLines_lines old) (by rw [h3]; exact splitLines_lines new) (by rw [h2]; exact lo) (by rw [h3]; exact ln)
  rw [h2, h3] at e1
  refine ⟨hs, hs', ?_, e2⟩
  unfold diffText
  rw [h1, Res.bind_ok, e1]

/-- **Diff, print, parse, apply**: the same through the text of the patch, for texts without NUL and with fewer than 10^8 - 1 lines. -/
theorem C54_text (minimal indent : Bool) {ctx : Nat} (hctx : 1 ≤ ctx) (inter : Nat) {funcs : Change → Bytes} {old new : Bytes} (lo : (splitLines old).length + 1 < 10 ^ 8)
    (ln : (splitLines new).length + 1 < 10 ^ 8) (zo : 0 ∉ old) (zn : 0 ∉ new) (hf : ∀ c, (funcs c).length ≤ 80 ∧ c!"\n" ∉ funcs c) :
    ∃ hs text, diffText minimal indent ctx inter funcs old new = .ok hs ∧ printHunks hs = .ok text ∧
      ∀ T : Bytes, ¬ b!"@@ -" <+: T → ¬ b!"\\ " <+: T → ∃ hs' hs'', parsePatch (text ++ T) = .ok (hs', T) ∧ applyHunks (fun _ => 0) old hs' = .ok (new, hs'') := by
  obtain ⟨steps, tail, h1, h2, h3, h4, h5, _⟩ := script_eq minimal indent (old := splitLines old) (new := splitLines new) (by omega)
  obtain ⟨hs, text, e1, e2, e3⟩ := C47_text (ctx := ctx) (inter := inter) (funcs := funcs) (steps := steps) (tail := tail) (old := old) (new := new) (.inl hctx)
    (by rw [h2]; exact splitLines_lines old) (by rw [h3]; exact splitLines_lines new) (by rw [h2]; exact lo) (by rw [h3]; exact ln) zo zn hf h4 h5
  rw [h2, h3] at e1
  refine ⟨hs, text, ?_, e2, e3⟩
  unfold diffText
  rw [h1, Res.bind_ok, e1]

/-! ## Examples -/

/-- two changes; lines that are in one file only and lines that are repeated -/
example : script false true [b!"a\n", b!"b\n", b!"x\n", b!"c\n", b!"d\n"] [b!"a\n", b!"y\n", b!"b\n", b!"c\n", b!"d\n", b!"d\n"] =
    .ok [{ i1 := 1, chg1 := 0, i2 := 1, chg2 := 1 }, { i1 := 2, chg1 := 1, i2 := 3, chg2 := 0 }, { i1 := 5, chg1 := 0, i2 := 5, chg2 := 1 }] := by decide +kernel

/-- a group of lines is moved down as far as it goes -/
example : script true false [b!"a\n", b!"b\n", b!"c\n"] [b!"a\n", b!"b\n", b!"a\n", b!"b\n", b!"c\n"] = .ok [{ i1 := 2, chg1 := 0, i2 := 2, chg2 := 2 }] := by decide +kernel

/-- the hypotheses are met by texts, one without newline at the end -/
example : ∃ hs hs', diffText false false 3 0 (fun _ => []) b!"one\ntwo\nthree" b!"one\n2\nthree\n" = .ok hs ∧ applyHunks (fun _ => 0) b!"one\ntwo\nthree" hs = .ok (b!"one\n2\nthree\n", hs') :=
  C54_apply false false (by decide) 0 _ (by decide +kernel) (by decide +kernel)

end Verif.Xdiff
