import Verif.MergeFile.Fill
import Verif.Xdiff.Props
/-! # The whole merge -/
namespace Verif.MergeFile
open Verif.Patch (Change splitLines changesOf)
open Verif.Patch.Spec (Step scriptOld scriptNew)
open Spec (Merged ThreeWay ShowsAll Style Common Hunk Compatible Text styleFor dataFor)

/-! ## The scripts -/

theorem al_append {a x b : List Bytes} {B N : List Bytes} {c c' : Nat} (hB : B.drop c = x ++ a) (hN : N.drop c' = x ++ b) (hc : c ≤ B.length) (hc' : c' ≤ N.length) : Al B N c c' x.length := by
  have l1 := congrArg List.length hB
  have l2 := congrArg List.length hN
  rw [List.length_drop, List.length_append] at l1 l2
  rw [al_iff (by omega) (by omega)]
  unfold slice
  rw [hB, hN, List.take_left, List.take_left]

theorem rem_of_steps {B N tail : List Bytes} : ∀ (steps : List Step) (f : Bool) (c c' : Nat), B.drop c = scriptOld steps tail → N.drop c' = scriptNew steps tail → c ≤ B.length → c' ≤ N.length →
    (∀ s ∈ steps, s.del ≠ [] ∨ s.add ≠ []) → (∀ s ∈ steps.tail, s.same ≠ []) → (f = true → ∀ s, steps.head? = some s → s.same ≠ []) → Rem B N f c c' (changesOf c c' steps) := by
  intro steps
  induction steps with
  | nil =>
    intro f c c' h1 h2 b1 b2 _ _ _
    simp only [scriptOld, scriptNew] at h1 h2
    have l1 := congrArg List.length h1
    have l2 := congrArg List.length h2
    rw [List.length_drop] at l1 l2
    exact .nil (k := tail.length) (by omega) (by omega) (al_append (a := []) (b := []) (by simpa using h1) (by simpa using h2) b1 b2)
  | cons s ss ih =>
    intro f c c' h1 h2 b1 b2 h3 h4 h5
    simp only [scriptOld, scriptNew, List.append_assoc] at h1 h2
    have l1 := congrArg List.length h1
    have l2 := congrArg List.length h2
    simp only [List.length_drop, List.length_append] at l1 l2
    simp only [changesOf]
    refine .cons (k := s.same.length) ?_ (al_append h1 h2 b1 b2) rfl rfl ?_ (ih true _ _ ?_ ?_ (by dsimp only; omega) (by dsimp only; omega) (fun t ht => h3 t (List.mem_cons_of_mem _ ht)) (fun t ht => h4 t (List.mem_of_mem_tail ht)) ?_)
    · intro hf; exact List.length_pos_iff.2 (h5 hf s rfl)
    · have := h3 s List.mem_cons_self
      simp only [← List.length_pos_iff] at this
      dsimp only
      omega
    · dsimp only
      rw [Nat.add_assoc, ← List.drop_drop, h1, ← List.append_assoc, List.drop_left' (by simp)]
    · dsimp only
      rw [Nat.add_assoc, ← List.drop_drop, h2, ← List.append_assoc, List.drop_left' (by simp)]
    · intro _ t ht
      exact h4 t (List.mem_of_mem_head? (by rw [List.tail_cons, ht]; simp))

theorem finds_of {diff : List Bytes → List Bytes → Res (List Change)} (h : Spec.Finds diff) : Finds diff := by
  intro a b hl
  obtain ⟨steps, tail, h1, h2, h3, h4, h5⟩ := h a b hl
  exact ⟨_, h1, rem_of_steps steps false 0 0 (by simpa using h2.symm) (by simpa using h3.symm) (Nat.zero_le _) (Nat.zero_le _) h4 h5 (by simp)⟩

/-- The search that `git_merge_file` uses finds the differences. -/
theorem finds_script (minimal indent : Bool) : Spec.Finds (Xdiff.script minimal indent) := fun _ _ h => Xdiff.C54_script minimal indent h

theorem rem_nil {B N : List Bytes} (h : Rem B N false 0 0 []) : B = N := by
  cases h with
  | @nil _ _ _ k a b c =>
    rw [Nat.zero_add] at a b
    have := (al_iff (by omega) (by omega)).1 c
    unfold slice at this
    rwa [List.drop_zero, List.drop_zero, List.take_of_length_le (by omega), List.take_of_length_le (by omega)] at this

theorem rem_bounds {B N : List Bytes} {f : Bool} {c c' : Nat} {xs : List Change} (h : Rem B N f c c' xs) : ∀ x ∈ xs, x.i1 + x.chg1 ≤ B.length ∧ x.i2 + x.chg2 ≤ N.length := by
  induction h with
  | nil => intro x hx; cases hx
  | cons a b d e g i ih =>
    intro y hy
    rcases List.mem_cons.1 hy with rfl | hy
    · exact i.bound
    · exact ih y hy

/-! ## Lines of a text -/

theorem split_inj {a b : Bytes} (h : splitLines a = splitLines b) : a = b := by
  rw [← Patch.splitLines_flatten a, h, Patch.splitLines_flatten]

theorem lines_length (s : Bytes) : (splitLines s).length ≤ s.length := by
  have h := Patch.splitLines_lines s
  have h1 := h.1
  have key : ∀ ls : List Bytes, (∀ l ∈ ls, l ≠ []) → ls.length ≤ ls.flatten.length := by
    intro ls
    induction ls with
    | nil => intro _; simp
    | cons l ls ih =>
      intro h
      have a := ih (fun x hx => h x (List.mem_cons_of_mem _ hx))
      have b := List.length_pos_iff.2 (h l List.mem_cons_self)
      simp only [List.length_cons, List.flatten_cons, List.length_append]
      omega
  have := key _ h.2.1
  rwa [h1] at this

/-- the three texts of a merge -/
def filesOf (base ours theirs : Bytes) : Files := ⟨splitLines base, splitLines ours, splitLines theirs⟩

theorem endedF_of (base ours theirs : Bytes) : EndedF (filesOf base ours theirs) := ⟨ended_split _, ended_split _, ended_split _⟩

theorem conflicts_eq {P : Params} (hP : P.favor ≤ 3) {ms : List M} {hs : List Hunk} (h : hs.map Hunk.verdict = ms.map verdictOf) :
    (ms.filter fun m => decide (favored P m.mode = 0)).length = Spec.conflicts (styleS P) hs := by
  unfold Spec.conflicts
  have hfav : (styleS P).favor = .none ↔ P.favor = 0 := by
    simp only [styleS, favorOf]
    (repeat' split) <;> simp <;> omega
  by_cases hf : P.favor = 0
  · rw [if_pos (hfav.2 hf)]
    have e1 : (hs.filter fun h => decide (h.verdict = .conflict)).length = ((hs.map Hunk.verdict).filter fun v => decide (v = .conflict)).length := by
      rw [List.filter_map, List.length_map]; rfl
    have e2 : (ms.filter fun m => decide (favored P m.mode = 0)).length = ((ms.map verdictOf).filter fun v => decide (v = .conflict)).length := by
      rw [List.filter_map, List.length_map]
      congr 2
      funext m
      simp only [favored, hf, Function.comp_def, verdictOf]
      by_cases h0 : m.mode = 0
      · simp [h0]
      · simp only [ne_eq, not_true, false_and, if_false, h0, decide_false]
        (repeat' split) <;> simp
    rw [e1, e2, h]
  · rw [if_neg (fun h => hf (hfav.1 h))]
    rw [List.length_eq_zero_iff, List.filter_eq_nil_iff]
    intro m _
    simp only [decide_eq_true_eq]
    unfold favored
    split
    · exact hf
    · rename_i hn; intro h0; exact hn ⟨hf, h0⟩

theorem noConflict_count {P : Params} {ms : List M} : (NoConflict ms → (ms.filter fun m => decide (favored P m.mode = 0)).length = 0) ∧
    (P.favor = 0 → (ms.filter fun m => decide (favored P m.mode = 0)).length = 0 → NoConflict ms) := by
  constructor
  · intro h
    rw [List.length_eq_zero_iff, List.filter_eq_nil_iff]
    intro m hm
    have := h m hm
    simp only [decide_eq_true_eq]
    unfold favored
    split <;> omega
  · intro hf h m hm
    rw [List.length_eq_zero_iff, List.filter_eq_nil_iff] at h
    have := h m hm
    simp only [decide_eq_true_eq, favored, hf] at this
    simpa using this

theorem apart_iff {F : Files} {xs1 xs2 : List Change} (b1 : ∀ x ∈ xs1, x.i2 + x.chg2 ≤ F.ours.length) (b2 : ∀ x ∈ xs2, x.i2 + x.chg2 ≤ F.theirs.length) :
    Apart F xs1 xs2 ↔ ∀ x ∈ xs1, ∀ y ∈ xs2, Compatible F.ours F.theirs x y := by
  unfold Apart Compatible
  refine forall₂_congr fun x hx => forall₂_congr fun y hy => or_congr_right (or_congr_right ?_)
  have h1 := b1 x hx
  have h2 := b2 y hy
  rcases identical_ok h1 h2 with ⟨h, a, b, c, d⟩ | ⟨h, n⟩
  · refine ⟨fun _ => ⟨a, b, c, ?_⟩, fun _ => h⟩
    rw [← c]
    exact (al_iff h1 (by omega)).1 d
  · refine ⟨fun h' => (by rw [h] at h'; cases h'), fun ⟨a, b, c, d⟩ => absurd ⟨a, b, c, ?_⟩ n⟩
    rw [← c] at d
    exact (al_iff h1 (by omega)).2 d

/-- the merge of texts whose scripts are not empty -/
theorem doMerge_ok {diff : List Bytes → List Bytes → Res (List Change)} (hd : Finds diff) {P : Params} (hP : P.favor ≤ 3) {base ours theirs : Bytes} (hsz : ours.length + theirs.length < 2 ^ 62) {xs1 xs2 : List Change}
    (r1 : Rem (splitLines base) (splitLines ours) false 0 0 xs1) (r2 : Rem (splitLines base) (splitLines theirs) false 0 0 xs2) :
    ∃ out n, Merged (styleS P) (splitLines base) (splitLines ours) (splitLines theirs) out n ∧
      doMerge diff (filesOf base ours theirs) P xs1 xs2 = (if 2 ^ 31 ≤ out.length then .ub else .ok (out, n)) ∧
      ((∀ x ∈ xs1, ∀ y ∈ xs2, Compatible (splitLines ours) (splitLines theirs) x y) → n = 0) ∧
      (P.favor = 0 → P.style = 1 ∨ P.style = 2 → n = 0 → ∀ x ∈ xs1, ∀ y ∈ xs2, Compatible (splitLines ours) (splitLines theirs) x y) := by
  have hsz' : (filesOf base ours theirs).ours.length + (filesOf base ours theirs).theirs.length < 2 ^ 62 := by
    have := lines_length ours; have := lines_length theirs
    simp only [filesOf]; omega
  obtain ⟨ms, h1, h2, h3⟩ := overlay_laid (F := filesOf base ours theirs) r1 r2
  rw [apart_iff (fun x hx => (rem_bounds r1 x hx).2) (fun x hx => (rem_bounds r2 x hx).2)] at h3
  obtain ⟨r, h4, h5, h6, h7⟩ := refined_laid hd hsz' P h2
  obtain ⟨cs, start, hs, b, h8, h9⟩ := fill_filled (endedF_of base ours theirs) hP h5 0 (Nat.le_refl _)
  refine ⟨(cs.map Chunk.bytes).flatten, (r.filter fun m => decide (favored P m.mode = 0)).length, ?_, ?_, ?_, ?_⟩
  · refine ⟨start, hs, ⟨?_, ?_, ?_, h9.ok, h9.apart⟩, ⟨b, h9.shows, ?_⟩, conflicts_eq hP h9.verdicts⟩
    · simpa [filesOf] using h9.base
    · simpa [filesOf] using h9.ours
    · simpa [filesOf] using h9.theirs
    · rw [h9.bytes]; simp [slice]
  · unfold doMerge
    rw [Int.natCast_zero] at h8
    rw [h1, Res.bind_ok, h4, Res.bind_ok, h8, Res.bind_ok, output_eq]
    split <;> rfl
  · intro hc
    exact noConflict_count.1 (h6 (h3.2 hc))
  · intro hf hs hn
    exact h3.1 (h7 hs (noConflict_count.2 hf hn))

theorem merged_theirs (s : Style) (base theirs : List Bytes) : Merged s base base theirs theirs.flatten 0 := by
  refine ⟨⟨[], []⟩, [⟨.theirs, base, base, theirs, ⟨[], []⟩⟩], ⟨by simp, by simp, by simp, by simp [Hunk.Ok], by simp⟩, ⟨theirs.flatten, ?_, by simp⟩, by simp [Spec.conflicts]⟩
  have := ShowsAll.cons (s := s) (base := base) (ours := base) (theirs := theirs) (h := ⟨.theirs, base, base, theirs, ⟨[], []⟩⟩) (hs := []) (a := theirs.flatten) (b := []) rfl .nil
  simpa using this

theorem merged_ours (s : Style) (base ours : List Bytes) : Merged s base ours base ours.flatten 0 := by
  refine ⟨⟨[], []⟩, [⟨.ours, base, ours, base, ⟨[], []⟩⟩], ⟨by simp, by simp, by simp, by simp [Hunk.Ok], by simp⟩, ⟨ours.flatten, ?_, by simp⟩, by simp [Spec.conflicts]⟩
  have := ShowsAll.cons (s := s) (base := base) (ours := ours) (theirs := base) (h := ⟨.ours, base, ours, base, ⟨[], []⟩⟩) (hs := []) (a := ours.flatten) (b := []) rfl .nil
  simpa using this

theorem xdlMerge_ok {diff : List Bytes → List Bytes → Res (List Change)} (hd : Finds diff) {P : Params} (hP : P.favor ≤ 3) {base ours theirs : Bytes} (hb : base.length < 2 ^ 31) (ho : ours.length < 2 ^ 31)
    (ht : theirs.length < 2 ^ 31) :
    ∃ xs1 xs2 out n, diff (splitLines base) (splitLines ours) = .ok xs1 ∧ diff (splitLines base) (splitLines theirs) = .ok xs2 ∧
      Merged (styleS P) (splitLines base) (splitLines ours) (splitLines theirs) out n ∧
      xdlMerge diff P base ours theirs = (if 2 ^ 31 ≤ out.length then .ub else .ok (out, n)) ∧
      ((∀ x ∈ xs1, ∀ y ∈ xs2, Compatible (splitLines ours) (splitLines theirs) x y) → n = 0) ∧
      (P.favor = 0 → P.style = 1 ∨ P.style = 2 → n = 0 → ∀ x ∈ xs1, ∀ y ∈ xs2, Compatible (splitLines ours) (splitLines theirs) x y) := by
  have lb := lines_length base
  have lo := lines_length ours
  have lt := lines_length theirs
  obtain ⟨xs1, h1, r1⟩ := hd (splitLines base) (splitLines ours) (by omega)
  obtain ⟨xs2, h2, r2⟩ := hd (splitLines base) (splitLines theirs) (by omega)
  unfold xdlMerge
  rw [h1, Res.bind_ok, h2, Res.bind_ok]
  by_cases e1 : xs1 = []
  · subst e1
    have e := rem_nil r1
    have m := merged_theirs (styleS P) (splitLines base) (splitLines theirs)
    rw [Patch.splitLines_flatten] at m
    rw [if_pos rfl]
    refine ⟨[], xs2, theirs, 0, rfl, rfl, by rw [← e]; exact m, by rw [if_neg (by omega)], fun _ => rfl, fun _ _ _ x hx => nomatch hx⟩
  · rw [if_neg e1]
    by_cases e2 : xs2 = []
    · subst e2
      have e := rem_nil r2
      have m := merged_ours (styleS P) (splitLines base) (splitLines ours)
      rw [Patch.splitLines_flatten] at m
      rw [if_pos rfl]
      refine ⟨xs1, [], ours, 0, rfl, rfl, by rw [← e]; exact m, by rw [if_neg (by omega)], fun _ => rfl, fun _ _ _ x _ y hy => nomatch hy⟩
    · rw [if_neg e2]
      obtain ⟨out, n, a, b, c, d⟩ := doMerge_ok hd hP (base := base) (ours := ours) (theirs := theirs) (by omega) r1 r2
      exact ⟨xs1, xs2, out, n, rfl, rfl, a, b, c, d⟩

end Verif.MergeFile
