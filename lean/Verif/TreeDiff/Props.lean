import Verif.TreeDiff.Lemmas6
/-! # C55, C56, C57: iterating over a tree, the diff of two trees, limiting a diff by a pathspec -/
namespace Verif.TreeDiff
open Spec B

theorem nonEmpty_some {s : Option Bytes} {x : Bytes} (h : nonEmpty s = some x) : s = some x := by
  unfold nonEmpty at h
  split at h
  · cases h
  · exact h

theorem nonEmpty_of {s : Option Bytes} {x : Bytes} (h : s = some x) (hx : x ≠ []) : nonEmpty s = some x := by
  subst h
  cases x with
  | nil => exact absurd rfl hx
  | cons _ _ => rfl

/-- **C55.** An iterator of a tree gives, in the order of their paths and each once, exactly the entries of the tree and of its subdirectories (only of the tree itself, if it is not to
expand directories) that are in the range (or, for directories, lead to its start) and listed; directories only if they are asked for. For every tree as git writes it, whatever the
range, and for every path list without NULs and clashes. -/
theorem C55_tree_iterator (store : Store) (o : Options) (tree : Option (List Entry)) (hg : ∀ es, tree = some es → Good store es) (h0 : ∀ q ∈ o.pathlist, (0 : UInt8) ∉ q)
    (hc : NoClash o.pathlist) :
    ∃ out, Yields store (initCommon o) (newIter (initCommon o) tree) out ∧ out.Pairwise (fun a b => a.path < b.path) ∧
      ∀ p mode id, (⟨p, mode, id⟩ : Item) ∈ out ↔
        ∃ es e, tree = some es ∧ At store es p e ∧ mode = e.mode ∧ id = e.id ∧ (o.dontAutoexpand = true → e ∈ es ∧ p = key e) ∧
          (InRange o.start o.stop p ∨ (LeadsTo o.start p ∧ InRange none o.stop p)) ∧ Listed o.pathlist p ∧ (e.isTree = true → o.includeTrees = true ∨ o.dontAutoexpand = true) := by
  obtain ⟨L, i1, s1, m1, n1⟩ := inv_new (o := initCommon o) hg
  refine ⟨wanted (initCommon o) L, stream_yields (stream (goodOpts h0 hc) _ _ L (Nat.le_refl _) i1), s1.sublist List.filter_sublist, ?_⟩
  have hstart : ∀ p : Bytes, (∀ s, (initCommon o).start = some s → s ≤ p ∨ (p.getLast? = some c!"/" ∧ p <+: s)) ↔ ((∀ s, o.start = some s → s ≤ p) ∨ LeadsTo o.start p) := by
    intro p
    constructor
    · intro h
      cases hs : o.start with
      | none => left; intro s e; cases e
      | some s =>
        by_cases hx : s = []
        · left; intro t e; cases e; subst hx; exact prefix_le List.nil_prefix
        · rcases h s (nonEmpty_of hs hx) with h | h
          · left; intro t e; cases e; exact h
          · right; exact ⟨s, rfl, h.2, h.1⟩
    · rintro (h | ⟨s, e, h1, h2⟩) t ht
      · exact Or.inl (h t (nonEmpty_some ht))
      · have := nonEmpty_some ht
        rw [e] at this; cases this
        exact Or.inr ⟨h2, h1⟩
  have hstop : ∀ p : Bytes, (∀ e, (initCommon o).stop = some e → p ≤ e ∨ e <+: p) ↔ (∀ e, o.stop = some e → p ≤ e ∨ e <+: p) := by
    intro p
    constructor
    · intro h e he
      by_cases hx : e = []
      · subst hx; exact Or.inr List.nil_prefix
      · exact h e (nonEmpty_of he hx)
    · intro h e he
      exact h e (nonEmpty_some he)
  have hrange : ∀ p : Bytes, ((∀ s, o.start = some s → s ≤ p) ∨ LeadsTo o.start p) ∧ (∀ e, o.stop = some e → p ≤ e ∨ e <+: p) ↔
      (InRange o.start o.stop p ∨ (LeadsTo o.start p ∧ InRange none o.stop p)) := by
    intro p
    unfold InRange
    constructor
    · rintro ⟨h | h, h'⟩
      · exact Or.inl ⟨h, h'⟩
      · exact Or.inr ⟨h, fun s e => (by cases e), h'⟩
    · rintro (⟨h, h'⟩ | ⟨h, _, h'⟩)
      · exact ⟨Or.inl h, h'⟩
      · exact ⟨Or.inr h, h'⟩
  have hincl : (initCommon o).includeTrees = true ↔ o.includeTrees = true ∨ o.dontAutoexpand = true := by simp [initCommon]
  have hauto : (initCommon o).autoexpand = true ↔ o.dontAutoexpand = false := by simp [initCommon]
  intro p mode id
  have hw : (⟨p, mode, id⟩ : Item) ∈ wanted (initCommon o) L ↔ (⟨p, mode, id⟩ : Item) ∈ L ∧ Wanted (initCommon o) ⟨p, mode, id⟩ := by
    unfold wanted
    simp only [List.mem_filter, decide_eq_true_eq]
  rw [hw]
  unfold Wanted
  simp only
  rw [hstart, hstop, show (initCommon o).pathlist = sortPaths o.pathlist from rfl, listed_sort, hincl, ← hrange]
  constructor
  · rintro ⟨hm, h1, h2, h3, h4⟩
    obtain ⟨es, q, e, he, hat, hx, hd, htr⟩ := m1 _ hm
    cases hx
    refine ⟨es, e, he, hat, rfl, rfl, ?_, ⟨h1, h2⟩, h3, fun ht => h4 (htr.mp ht)⟩
    intro ha
    refine hd ?_
    simp [initCommon, ha]
  · rintro ⟨es, e, he, hat, rfl, rfl, hd, ⟨h1, h2⟩, h3, h4⟩
    refine ⟨n1 es p e he hat ?_, h1, h2, h3, fun hl => h4 ((at_path (hg es he) hat).2.2.2.1.mpr hl)⟩
    cases ha : o.dontAutoexpand with
    | false => exact Or.inl (hauto.mpr ha)
    | true => exact Or.inr (hd ha)

/-- **C55.** What an iterator gives does not depend on how long one waits for it: there is only one answer. -/
theorem C55_one_answer {store : Store} {o : Opts} {it : Iter} {xs ys : List Item} (h1 : Yields store o it xs) (h2 : Yields store o it ys) : xs = ys := yields_unique h1 h2

/-- **C55.** After GIT_ITEROVER there is nothing more: it is reported again. For every tree, good or not. -/
theorem C55_over_stays {store : Store} {o : Opts} {it it' : Iter} {fuel : Nat} (h : advance store o fuel it = some (.ok (it', none))) : Yields store o it' [] := by
  have hd' : Done o it' := over_done fuel h
  have hd : Done o { it' with accessed := true } := hd'
  obtain ⟨it'', h'⟩ := done_over (store := store) _ _ hd (Nat.le_refl _)
  exact .over (show advance store o _ it' = _ from h')

/-! ## C56 -/

theorem no_pathspec {o : DOptions} (h : o.pathspec = []) : GoodOpts (initCommon (iterOptions o)) ∧ ∀ p, Here (initCommon (iterOptions o)) p := by
  have hp : (iterOptions o).pathlist = [] ∧ (iterOptions o).start = none ∧ (iterOptions o).stop = none := by
    unfold iterOptions
    rw [h]
    split
    · exact ⟨rfl, rfl, rfl⟩
    · exact ⟨rfl, rfl, rfl⟩
  constructor
  · refine goodOpts ?_ ?_
    · rw [hp.1]; simp
    · rw [hp.1]; intro q hq; cases hq
  · intro p
    unfold Here initCommon
    simp only [hp.1, hp.2.1, hp.2.2]
    refine ⟨?_, ?_, Or.inl rfl⟩
    · intro s e; cases e
    · intro s e; cases e

theorem match_no_pathspec {o : DOptions} (h : o.pathspec = []) (x : Item) : diffPathspecMatch (applyOptions o) x = true := by
  unfold diffPathspecMatch applyOptions
  rw [h]
  simp [vinit, pathspecMatch]

/-- **C56.** The diff of two trees (without a pathspec and without GIT_DIFF_INCLUDE_TYPECHANGE_TREES) has for every path exactly the deltas that what the two trees have there calls for;
with GIT_DIFF_REVERSE, each the other way round. The deltas are in the order of their paths. For every pair of trees as git writes them. -/
theorem C56_tree_diff (store : Store) (o : DOptions) (old new : Option (List Entry)) (hp : o.pathspec = []) (ht : o.includeTypechangeTrees = false)
    (hgo : ∀ es, old = some es → Good store es) (hgn : ∀ es, new = some es → Good store es) :
    ∃ N deltas, (∀ fuel, N ≤ fuel → treeToTree store o fuel old new = some (.ok deltas)) ∧ deltas.Pairwise (fun a b => a.path ≤ b.path) ∧
      ∀ p f g, Says store old p f → Says store new p g → deltas.filter (fun dl => dl.path = p) =
        if o.reverse then (expected o.includeUnmodified o.includeTypechange o.ignoreSubmodules p f g).map turn
        else expected o.includeUnmodified o.includeTypechange o.ignoreSubmodules p f g := by
  obtain ⟨hg, hh⟩ := no_pathspec hp
  obtain ⟨N, D, h1, h2, h3⟩ := diff_general ht hgo hgn hg
  refine ⟨N, D, h1, h2, ?_⟩
  intro p f g hf hg'
  rw [(h3 p f g hf hg').1 (hh p), one_expected (fun x _ => match_no_pathspec hp _)]
  simp [applyOptions, ht]

theorem says_exists (store : Store) (tree : Option (List Entry)) (hg : ∀ es, tree = some es → Good store es) (p : Bytes) : ∃ f, Says store tree p f := by
  obtain ⟨L, _, s, m, n⟩ := inv_new (store := store) (o := initCommon ⟨false, false, none, none, []⟩) hg
  by_cases h : ∃ mode id, Has store tree p mode id
  · obtain ⟨mode, id, h⟩ := h
    refine ⟨some (mode, id), ?_⟩
    intro m' i'
    constructor
    · intro e; cases e; exact h
    · intro h'
      obtain ⟨es, e, he, hat, _, rfl, rfl⟩ := h
      obtain ⟨es', e', he', hat', _, rfl, rfl⟩ := h'
      have a := n es p e he hat (Or.inl rfl)
      have b := n es' p e' he' hat' (Or.inl rfl)
      have key : ∀ {K : List Item}, K.Pairwise (fun a b => a.path < b.path) → ∀ x ∈ K, ∀ y ∈ K, x.path = y.path → x = y := by
        intro K
        induction K with
        | nil => intro _ x hx; cases hx
        | cons z K ih =>
          intro hK x hx y hy e
          have hK' := List.pairwise_cons.mp hK
          rcases List.mem_cons.mp hx with e1 | hx
          · rcases List.mem_cons.mp hy with e2 | hy
            · rw [e1, e2]
            · exact absurd (e1 ▸ e) (ne_of_lt (hK'.1 y hy))
          · rcases List.mem_cons.mp hy with e2 | hy
            · exact absurd (e2 ▸ e.symm) (ne_of_lt (hK'.1 x hx))
            · exact ih hK'.2 x hx y hy e
      have := key s _ a _ b rfl
      simp only [Item.mk.injEq, true_and] at this
      rw [this.1, this.2]
  · refine ⟨none, ?_⟩
    intro m' i'
    constructor
    · intro e; cases e
    · intro h'; exact absurd ⟨m', i', h'⟩ h

/-- **C56.** The diff is empty exactly if the two trees have the same files with the same modes and ids (when what did not change is not asked for, submodules are not ignored, and
no id is zero). -/
theorem C56_empty_iff (store : Store) (o : DOptions) (old new : Option (List Entry)) (hp : o.pathspec = []) (ht : o.includeTypechangeTrees = false) (hu : o.includeUnmodified = false)
    (hs : o.ignoreSubmodules = false) (hgo : ∀ es, old = some es → Good store es) (hgn : ∀ es, new = some es → Good store es)
    (hz : ∀ p mode id, Has store old p mode id → ∃ c ∈ id, c ≠ 0) :
    ∃ N deltas, (∀ fuel, N ≤ fuel → treeToTree store o fuel old new = some (.ok deltas)) ∧
      (deltas = [] ↔ ∀ p mode id, Has store old p mode id ↔ Has store new p mode id) := by
  obtain ⟨N, D, h1, _, h3⟩ := C56_tree_diff store o old new hp ht hgo hgn
  refine ⟨N, D, h1, ?_⟩
  constructor
  · intro hD p mode id
    obtain ⟨f, hf⟩ := says_exists store old hgo p
    obtain ⟨g, hg⟩ := says_exists store new hgn p
    have := h3 p f g hf hg
    rw [hD] at this
    rw [← hf mode id, ← hg mode id]
    have hnil : expected o.includeUnmodified o.includeTypechange o.ignoreSubmodules p f g = [] := by
      cases hr : o.reverse <;> simp [hr] at this <;> exact this
    cases f with
    | none =>
      cases g with
      | none => rfl
      | some g => simp [expected] at hnil
    | some f =>
      cases g with
      | none => simp [expected] at hnil
      | some g =>
        simp only [expected, hs, Bool.false_eq_true, and_false, or_false] at hnil
        split at hnil
        · split at hnil <;> simp at hnil
        · split at hnil
          · rename_i h; rw [h.1]
          · simp at hnil
  · intro hsame
    cases hD : D with
    | nil => rfl
    | cons d D' =>
      obtain ⟨f, hf⟩ := says_exists store old hgo d.path
      have hg : Says store new d.path f := fun m i => (hf m i).trans (hsame _ _ _)
      have := h3 d.path f f hf hg
      have hnil : expected o.includeUnmodified o.includeTypechange o.ignoreSubmodules d.path f f = [] := by
        cases f with
        | none => simp [expected]
        | some v =>
          obtain ⟨m, i⟩ := v
          have := hz _ _ _ ((hf m i).mp rfl)
          simp only [expected, ne_eq, not_true, if_false, hu, Bool.false_eq_true, true_and]
          rw [if_pos (Or.inl this)]
      rw [hnil, hD] at this
      simp at this

/-- **C56.** A diff made with GIT_DIFF_REVERSE is the diff of the trees the other way round, up to the order of the two deltas (deleted, added) of a path whose type changes. -/
theorem C56_reverse (store : Store) (o : DOptions) (old new : Option (List Entry)) (hp : o.pathspec = []) (ht : o.includeTypechangeTrees = false) (hr : o.reverse = false)
    (hgo : ∀ es, old = some es → Good store es) (hgn : ∀ es, new = some es → Good store es) :
    ∃ N there back, (∀ fuel, N ≤ fuel → treeToTree store { o with reverse := true } fuel old new = some (.ok there)) ∧
      (∀ fuel, N ≤ fuel → treeToTree store o fuel new old = some (.ok back)) ∧
      ∀ p, (there.filter (fun dl => dl.path = p)).Perm (back.filter (fun dl => dl.path = p)) ∧
        (o.includeTypechange = true → there.filter (fun dl => dl.path = p) = back.filter (fun dl => dl.path = p)) := by
  obtain ⟨N1, D1, a1, _, c1⟩ := C56_tree_diff store { o with reverse := true } old new hp ht hgo hgn
  obtain ⟨N2, D2, a2, _, c2⟩ := C56_tree_diff store o new old hp ht hgn hgo
  refine ⟨N1 + N2, D1, D2, fun fuel hf => a1 fuel (by omega), fun fuel hf => a2 fuel (by omega), ?_⟩
  intro p
  obtain ⟨f, hf⟩ := says_exists store old hgo p
  obtain ⟨g, hg⟩ := says_exists store new hgn p
  rw [c1 p f g hf hg, c2 p g f hg hf]
  simp only [hr, if_true, Bool.false_eq_true, if_false]
  cases f with
  | none => cases g <;> simp [expected, turn]
  | some f =>
    cases g with
    | none => simp [expected, turn]
    | some g =>
      simp only [expected]
      by_cases hk : kind f = kind g
      · simp only [hk, ne_eq, not_true, if_false]
        have : ((f = g ∧ ∃ c ∈ f.2, c ≠ 0) ∨ (kind g = 14 ∧ o.ignoreSubmodules = true)) ↔ ((g = f ∧ ∃ c ∈ g.2, c ≠ 0) ∨ (kind g = 14 ∧ o.ignoreSubmodules = true)) := by
          constructor <;> (rintro (⟨rfl, h⟩ | h); exact Or.inl ⟨rfl, h⟩; exact Or.inr h)
        simp only [this]
        split
        · cases o.includeUnmodified <;> simp [turn]
        · simp [turn]
      · simp only [hk, Ne.symm hk, ne_eq, not_false_eq_true, if_true]
        cases htc : o.includeTypechange
        · simp [turn]
          exact List.Perm.swap _ _ _
        · simp [turn]

/-! ## C57 -/

theorem here_of_prefix {o : DOptions} (hd : o.disablePathspecMatch = false) {p : Bytes} :
    (∀ s, pathspecPrefix o.pathspec = some s → s <+: p) → Here (initCommon (iterOptions o)) p := by
  intro h
  unfold Here initCommon iterOptions
  simp only [hd, Bool.false_eq_true, if_false]
  refine ⟨?_, ?_, Or.inl rfl⟩
  · intro s e; exact prefix_le (h s (nonEmpty_some e))
  · intro s e; exact Or.inr (h s (nonEmpty_some e))

theorem goodOpts_match {o : DOptions} (hd : o.disablePathspecMatch = false) : GoodOpts (initCommon (iterOptions o)) := by
  have hp : (iterOptions o).pathlist = [] := by unfold iterOptions; simp [hd]
  refine goodOpts ?_ ?_
  · rw [hp]; simp
  · rw [hp]; intro q hq; cases hq

theorem says_nul {store : Store} {tree : Option (List Entry)} (hg : ∀ es, tree = some es → Good store es) {p : Bytes} {x : Nat × Bytes} (h : Says store tree p (some x)) :
    (0 : UInt8) ∉ p ∧ p.getLast? ≠ some c!"/" := by
  obtain ⟨es, e, he, hat, hnt, _, _⟩ := (h x.1 x.2).mp rfl
  have := at_path (hg es he) hat
  refine ⟨this.2.2.1, fun h => ?_⟩
  have := this.2.2.2.1.mpr h
  rw [hnt] at this; cases this

/-- **C57.** A pathspec never changes what is said about a path: whatever it is, the diff has for every path either the deltas it has without the pathspec or none. -/
theorem C57_all_or_nothing (store : Store) (o : DOptions) (old new : Option (List Entry)) (hd : o.disablePathspecMatch = false) (ht : o.includeTypechangeTrees = false)
    (hgo : ∀ es, old = some es → Good store es) (hgn : ∀ es, new = some es → Good store es) :
    ∃ N part whole, (∀ fuel, N ≤ fuel → treeToTree store o fuel old new = some (.ok part)) ∧ (∀ fuel, N ≤ fuel → treeToTree store { o with pathspec := [] } fuel old new = some (.ok whole)) ∧
      part.Pairwise (fun a b => a.path ≤ b.path) ∧
      ∀ p, part.filter (fun dl => dl.path = p) = whole.filter (fun dl => dl.path = p) ∨ part.filter (fun dl => dl.path = p) = [] := by
  obtain ⟨N1, D1, a1, b1, c1⟩ := diff_general (o := o) ht hgo hgn (goodOpts_match hd)
  obtain ⟨N2, D2, a2, _, c2⟩ := C56_tree_diff store { o with pathspec := [] } old new rfl ht hgo hgn
  refine ⟨N1 + N2, D1, D2, fun fuel hf => a1 fuel (by omega), fun fuel hf => a2 fuel (by omega), b1, ?_⟩
  intro p
  obtain ⟨f, hf⟩ := says_exists store old hgo p
  obtain ⟨g, hg⟩ := says_exists store new hgn p
  have h1 := c1 p f g hf hg
  by_cases hh : Here (initCommon (iterOptions o)) p
  · have hm : ∀ x : Nat × Bytes, diffPathspecMatch (applyOptions o) ⟨p, x.1, x.2⟩ = pathspecMatch false (vinit o.pathspec) p := by
      intro x
      simp [diffPathspecMatch, applyOptions, hd]
    cases hb : pathspecMatch false (vinit o.pathspec) p with
    | true =>
      left
      rw [h1.1 hh, c2 p f g hf hg, one_expected (fun x _ => by rw [hm, hb])]
      simp [applyOptions, ht]
    | false =>
      right
      rw [h1.1 hh, one_none (fun x _ => by rw [hm, hb])]
  · exact Or.inr (h1.2 hh)

/-- **C57.** Limited by plain pathspecs, the diff has the deltas that it should have for the paths that are selected, all of them, and none for other paths. -/
theorem C57_pathspec (store : Store) (o : DOptions) (old new : Option (List Entry)) (hd : o.disablePathspecMatch = false) (ht : o.includeTypechangeTrees = false) (hne : o.pathspec ≠ [])
    (hpl : ∀ q ∈ o.pathspec, Plain q) (hgo : ∀ es, old = some es → Good store es) (hgn : ∀ es, new = some es → Good store es) :
    ∃ N part whole, (∀ fuel, N ≤ fuel → treeToTree store o fuel old new = some (.ok part)) ∧ (∀ fuel, N ≤ fuel → treeToTree store { o with pathspec := [] } fuel old new = some (.ok whole)) ∧
      part.Pairwise (fun a b => a.path ≤ b.path) ∧
      ∀ p, ((∃ q ∈ o.pathspec, Selects q p) → part.filter (fun dl => dl.path = p) = whole.filter (fun dl => dl.path = p)) ∧
        (¬ (∃ q ∈ o.pathspec, Selects q p) → part.filter (fun dl => dl.path = p) = []) := by
  obtain ⟨N1, D1, a1, b1, c1⟩ := diff_general (o := o) ht hgo hgn (goodOpts_match hd)
  obtain ⟨N2, D2, a2, _, c2⟩ := C56_tree_diff store { o with pathspec := [] } old new rfl ht hgo hgn
  refine ⟨N1 + N2, D1, D2, fun fuel hf => a1 fuel (by omega), fun fuel hf => a2 fuel (by omega), b1, ?_⟩
  intro p
  obtain ⟨f, hf⟩ := says_exists store old hgo p
  obtain ⟨g, hg⟩ := says_exists store new hgn p
  have h1 := c1 p f g hf hg
  have hm : ∀ x : Nat × Bytes, diffPathspecMatch (applyOptions o) ⟨p, x.1, x.2⟩ = pathspecMatch false (vinit o.pathspec) p := by
    intro x
    simp [diffPathspecMatch, applyOptions, hd]
  have hnul : ∀ x : Nat × Bytes, (f = some x ∨ g = some x) → (0 : UInt8) ∉ p := by
    rintro x (rfl | rfl)
    · exact (says_nul hgo hf).1
    · exact (says_nul hgn hg).1
  constructor
  · rintro ⟨q, hq, hs⟩
    have hh : Here (initCommon (iterOptions o)) p := here_of_prefix hd (fun s e => (selects_in hpl hq hs e).1)
    rw [h1.1 hh, c2 p f g hf hg, one_expected]
    · simp [applyOptions, ht]
    · intro x hx
      rw [hm, pathspec_plain hne hpl (hnul x hx)]
      exact ⟨q, hq, hs⟩
  · intro hns
    by_cases hh : Here (initCommon (iterOptions o)) p
    · rw [h1.1 hh, one_none]
      intro x hx
      rw [hm]
      cases hb : pathspecMatch false (vinit o.pathspec) p with
      | false => rfl
      | true => exact absurd ((pathspec_plain hne hpl (hnul x hx)).mp hb) hns
    · exact h1.2 hh

/-- **C57.** With GIT_DIFF_DISABLE_PATHSPEC_MATCH the pathspec is a list of paths: the diff has the deltas that it should have for the regular files and links that are listed or are in a
directory that is listed, and none for others (if no path of the list clashes with another). -/
theorem C57_path_list (store : Store) (o : DOptions) (old new : Option (List Entry)) (hd : o.disablePathspecMatch = true) (ht : o.includeTypechangeTrees = false)
    (h0 : ∀ q ∈ o.pathspec, (0 : UInt8) ∉ q) (hc : NoClash o.pathspec) (hgo : ∀ es, old = some es → Good store es) (hgn : ∀ es, new = some es → Good store es) :
    ∃ N part whole, (∀ fuel, N ≤ fuel → treeToTree store o fuel old new = some (.ok part)) ∧ (∀ fuel, N ≤ fuel → treeToTree store { o with pathspec := [] } fuel old new = some (.ok whole)) ∧
      part.Pairwise (fun a b => a.path ≤ b.path) ∧
      ∀ p, ((o.pathspec = [] ∨ ∃ q ∈ o.pathspec, Asks q p) → (∀ mode id, (Has store old p mode id ∨ Has store new p mode id) → mode / 4096 % 16 = 8 ∨ mode / 4096 % 16 = 10) →
          part.filter (fun dl => dl.path = p) = whole.filter (fun dl => dl.path = p)) ∧
        (¬ (o.pathspec = [] ∨ ∃ q ∈ o.pathspec, Asks q p) → part.filter (fun dl => dl.path = p) = []) := by
  have hio : iterOptions o = ⟨false, false, none, none, o.pathspec⟩ := by unfold iterOptions; simp [hd]
  have hgood : GoodOpts (initCommon (iterOptions o)) := by rw [hio]; exact goodOpts h0 hc
  have hhere : ∀ p, Here (initCommon (iterOptions o)) p ↔ Listed o.pathspec p := by
    intro p
    rw [hio]
    unfold Here
    rw [show (initCommon ⟨false, false, none, none, o.pathspec⟩).pathlist = sortPaths o.pathspec from rfl, listed_sort]
    constructor
    · exact fun h => h.2.2
    · exact fun h => ⟨fun s e => (by cases e), fun s e => (by cases e), h⟩
  obtain ⟨N1, D1, a1, b1, c1⟩ := diff_general (o := o) ht hgo hgn hgood
  obtain ⟨N2, D2, a2, _, c2⟩ := C56_tree_diff store { o with pathspec := [] } old new rfl ht hgo hgn
  refine ⟨N1 + N2, D1, D2, fun fuel hf => a1 fuel (by omega), fun fuel hf => a2 fuel (by omega), b1, ?_⟩
  intro p
  obtain ⟨f, hf⟩ := says_exists store old hgo p
  obtain ⟨g, hg⟩ := says_exists store new hgn p
  have h1 := c1 p f g hf hg
  constructor
  · intro hl hk
    have hh : Here (initCommon (iterOptions o)) p := by
      rw [hhere]
      rcases hl with h | ⟨q, hq, h⟩
      · exact Or.inl h
      · exact Or.inr ⟨q, hq, Or.inl h⟩
    rw [h1.1 hh, c2 p f g hf hg, one_expected]
    · simp [applyOptions, ht]
    · intro x hx
      have : modeType x.1 = 8 ∨ modeType x.1 = 10 := by
        rcases hx with rfl | rfl
        · exact hk x.1 x.2 (Or.inl ((hf _ _).mp rfl))
        · exact hk x.1 x.2 (Or.inr ((hg _ _).mp rfl))
      unfold diffPathspecMatch
      rw [if_pos ⟨Or.symm this, hd⟩]
  · intro hnl
    by_cases hh : Here (initCommon (iterOptions o)) p
    · have hl := (hhere p).mp hh
      have hlast : p.getLast? = some c!"/" := by
        rcases hl with h | ⟨q, hq, h | h⟩
        · exact absurd (Or.inl h) hnl
        · exact absurd (Or.inr ⟨q, hq, h⟩) hnl
        · exact h.1
      rw [h1.1 hh]
      cases f with
      | some f => exact absurd hlast (says_nul hgo hf).2
      | none =>
        cases g with
        | some g => exact absurd hlast (says_nul hgn hg).2
        | none => rfl
    · exact h1.2 hh

/-! ## Concrete cases -/

/-- two trees with a directory that changes -/
def exStore : Store := fun id =>
  if id = b!"D1" then some [⟨b!"x", 0o100644, b!"2"⟩, ⟨b!"y", 0o100644, b!"3"⟩]
  else if id = b!"D2" then some [⟨b!"x", 0o100644, b!"5"⟩]
  else none

def exOld : List Entry := [⟨b!"a", 0o100644, b!"1"⟩, ⟨b!"d", 0o40000, b!"D1"⟩, ⟨b!"z", 0o120000, b!"4"⟩]
def exNew : List Entry := [⟨b!"a", 0o100644, b!"1"⟩, ⟨b!"d", 0o40000, b!"D2"⟩, ⟨b!"n", 0o100755, b!"6"⟩, ⟨b!"z", 0o100644, b!"4"⟩]

theorem exGood : Good exStore exOld ∧ Good exStore exNew := by
  have leaf : ∀ es : List Entry, Canonical es → (∀ e ∈ es, e.isTree = false) → Good exStore es := by
    intro es hc ht
    exact .mk hc (fun d hd h => by rw [ht d hd] at h; cases h) (fun d hd h => by rw [ht d hd] at h; cases h)
  have h1 : Good exStore [⟨b!"x", 0o100644, b!"2"⟩, ⟨b!"y", 0o100644, b!"3"⟩] := leaf _ (by unfold Canonical; decide +kernel) (by decide +kernel)
  have h2 : Good exStore [⟨b!"x", 0o100644, b!"5"⟩] := leaf _ (by unfold Canonical; decide +kernel) (by decide +kernel)
  have sub : ∀ id s, exStore id = some s → Good exStore s := by
    intro id s h
    unfold exStore at h
    split at h
    · cases h; exact h1
    · split at h
      · cases h; exact h2
      · cases h
  exact ⟨.mk (by unfold Canonical; decide +kernel) (by decide +kernel) (fun d _ _ s hs => sub d.id s hs), .mk (by unfold Canonical; decide +kernel) (by decide +kernel) (fun d _ _ s hs => sub d.id s hs)⟩

/-- the options of a diff, with nothing special -/
def exOpts : DOptions := ⟨false, false, false, false, false, false, []⟩

-- all entries, and directories; only what is in the range
example : (advance exStore (initCommon ⟨true, false, some b!"d/y", none, []⟩) 9 (newIter (initCommon ⟨true, false, some b!"d/y", none, []⟩) (some exOld))).map
    (fun r => match r with | .ok r => r.2 | _ => none) = some (some ⟨b!"d/", 0o40000, b!"D1"⟩) := by decide +kernel

-- the diff: a file in the directory modified, one deleted, one file added, a link replaced by a file
example : treeToTree exStore exOpts 20 (some exOld) (some exNew) = some (.ok [
    ⟨.modified, b!"d/x", 2, ⟨0o100644, b!"2", true⟩, ⟨0o100644, b!"5", true⟩⟩, ⟨.deleted, b!"d/y", 1, ⟨0o100644, b!"3", true⟩, noFile⟩,
    ⟨.added, b!"n", 1, noFile, ⟨0o100755, b!"6", true⟩⟩, ⟨.deleted, b!"z", 1, ⟨0o120000, b!"4", true⟩, noFile⟩, ⟨.added, b!"z", 1, noFile, ⟨0o100644, b!"4", true⟩⟩]) := by decide +kernel

-- the other way round: of the two deltas of "z" the one with the added file comes first
example : (treeToTree exStore { exOpts with reverse := true } 20 (some exNew) (some exOld)).map (fun r => match r with | .ok ds => ds.map (fun d => (d.status, d.path)) | _ => []) =
    some [(.modified, b!"d/x"), (.deleted, b!"d/y"), (.added, b!"n"), (.added, b!"z"), (.deleted, b!"z")] := by decide +kernel

-- by a pathspec; by a path list
example : treeToTree exStore { exOpts with pathspec := [b!"d/y"] } 20 (some exOld) (some exNew) = some (.ok [⟨.deleted, b!"d/y", 1, ⟨0o100644, b!"3", true⟩, noFile⟩]) := by decide +kernel

example : (treeToTree exStore { exOpts with pathspec := [b!"n", b!"d"], disablePathspecMatch := true } 20 (some exOld) (some exNew)).map
    (fun r => match r with | .ok ds => ds.map (·.path) | _ => []) = some [b!"d/x", b!"d/y", b!"n"] := by decide +kernel

theorem exPlain : Plain b!"d/y" ∧ Plain b!"*.c" ∧ Plain b!"src" := by
  refine ⟨?_, ?_, ?_⟩ <;> exact ⟨by decide, by decide, by decide, by decide, by decide, by decide, by decide, by decide +kernel⟩

theorem exClash : NoClash [b!"n", b!"d"] := by
  intro q hq _ _ r hr c t e
  simp only [List.mem_cons, List.not_mem_nil, or_false] at hq hr
  rcases hq with rfl | rfl <;> rcases hr with rfl | rfl <;> simp at e

-- the theorems at work
example : ∃ N part whole, (∀ fuel, N ≤ fuel → treeToTree exStore { exOpts with pathspec := [b!"src", b!"*.c"] } fuel (some exOld) (some exNew) = some (.ok part)) ∧
    (∀ fuel, N ≤ fuel → treeToTree exStore exOpts fuel (some exOld) (some exNew) = some (.ok whole)) ∧ part.filter (fun dl => dl.path = b!"src/x") = whole.filter (fun dl => dl.path = b!"src/x") := by
  obtain ⟨N, part, whole, h1, h2, _, h3⟩ := C57_pathspec exStore { exOpts with pathspec := [b!"src", b!"*.c"] } (some exOld) (some exNew) rfl rfl (by simp)
    (fun q hq => by
      simp only [List.mem_cons, List.not_mem_nil, or_false] at hq
      rcases hq with rfl | rfl
      · exact exPlain.2.2
      · exact exPlain.2.1) (fun es e => by cases e; exact exGood.1) (fun es e => by cases e; exact exGood.2)
  exact ⟨N, part, whole, h1, h2, (h3 b!"src/x").1 ⟨b!"src", by simp, Or.inr (Or.inr ⟨by decide +kernel, by decide +kernel⟩)⟩⟩

example : ∃ N part whole, (∀ fuel, N ≤ fuel → treeToTree exStore { exOpts with pathspec := [b!"n", b!"d"], disablePathspecMatch := true } fuel (some exOld) (some exNew) = some (.ok part)) ∧
    (∀ fuel, N ≤ fuel → treeToTree exStore { exOpts with disablePathspecMatch := true } fuel (some exOld) (some exNew) = some (.ok whole)) ∧ part.filter (fun dl => dl.path = b!"z") = [] := by
  obtain ⟨N, part, whole, h1, h2, _, h3⟩ := C57_path_list exStore { exOpts with pathspec := [b!"n", b!"d"], disablePathspecMatch := true } (some exOld) (some exNew) rfl rfl
    (by decide) exClash (fun es e => by cases e; exact exGood.1) (fun es e => by cases e; exact exGood.2)
  exact ⟨N, part, whole, h1, h2, (h3 b!"z").2 (by simp [Asks, List.cons_prefix_cons])⟩

/-! ## Where the code does not do what one expects -/

/-- what an iterator gives, for examples -/
def run (store : Store) (o : Opts) : Nat → Iter → List Bytes
  | 0, _ => []
  | n + 1, it =>
    match advance store o 30 it with
    | some (.ok (it, some x)) => x.path :: run store o n it
    | _ => []

/-- a tree with "foo.c", "foo.h" and the directory "foo" -/
def clashStore : Store := fun id => if id = b!"D" then some [⟨b!"x", 0o100644, b!"2"⟩] else none
def clashTree : List Entry := [⟨b!"foo.c", 0o100644, b!"1"⟩, ⟨b!"foo.h", 0o100644, b!"1"⟩, ⟨b!"foo", 0o40000, b!"D"⟩]

-- A path list with "foo" and "foo.c": the directory "foo" is lost, because "foo" is given up when "foo.h" has come. (With "foo" alone it is there.)
example : run clashStore (initCommon ⟨false, false, none, none, [b!"foo", b!"foo.c"]⟩) 9 (newIter (initCommon ⟨false, false, none, none, [b!"foo", b!"foo.c"]⟩) (some clashTree)) = [b!"foo.c"] := by
  decide +kernel
example : run clashStore (initCommon ⟨false, false, none, none, [b!"foo"]⟩) 9 (newIter (initCommon ⟨false, false, none, none, [b!"foo"]⟩) (some clashTree)) = [b!"foo/x"] := by decide +kernel
example : ¬ NoClash [b!"foo", b!"foo.c"] := by
  intro h
  have := h b!"foo" (by simp) (by simp) (by simp) b!"foo.c" (by simp) c!"." b!"c" rfl
  exact absurd this (by decide)

/-- the paths of a diff with a pathspec -/
def pathsWith (o : DOptions) (old new : List Entry) : Option (List Bytes) :=
  (treeToTree clashStore o 30 (some old) (some new)).map (fun r => match r with | .ok ds => ds.map (·.path) | _ => [])

-- the pathspec "." matches everything, but only paths that begin with a dot are looked at
example : pathsWith { exOpts with pathspec := [b!"."] } [] [⟨b!".gitignore", 0o100644, b!"1"⟩, ⟨b!"a", 0o100644, b!"1"⟩] = some [b!".gitignore"] := by decide +kernel
-- "*" does not have this problem
example : pathsWith { exOpts with pathspec := [b!"*"] } [] [⟨b!".gitignore", 0o100644, b!"1"⟩, ⟨b!"a", 0o100644, b!"1"⟩] = some [b!".gitignore", b!"a"] := by decide +kernel
-- a pathspec with a blank at its end is read without the blank, but only paths that begin with it, blank included, are looked at
example : pathsWith { exOpts with pathspec := [b!"a "] } [] [⟨b!"a", 0o100644, b!"1"⟩] = some [] := by decide +kernel
-- a slash at the beginning is dropped, but only paths that begin with it are looked at
example : pathsWith { exOpts with pathspec := [b!"/a"] } [] [⟨b!"a", 0o100644, b!"1"⟩] = some [] := by decide +kernel
-- two pathspecs with escapes that differ after the backslash: the backslash is in the prefix
example : pathspecPrefix [b!"foo\\*a", b!"foo\\?b"] = some b!"foo\\" := by decide +kernel
-- `foo\\*` (a backslash, then anything) has the prefix `foo\*`
example : pathspecPrefix [b!"foo\\\\*"] = some b!"foo\\*" := by decide +kernel

/-- "foo" is a file, and becomes a directory -/
def fileTree : List Entry := [⟨b!"foo", 0o100644, b!"1"⟩]
def dirTree : List Entry := [⟨b!"foo", 0o40000, b!"D"⟩]
def dirTree2 : List Entry := [⟨b!"foo-a", 0o100644, b!"3"⟩, ⟨b!"foo", 0o40000, b!"D"⟩]

-- GIT_DIFF_INCLUDE_TYPECHANGE_TREES: the file has changed its type to that of a directory
example : treeToTree clashStore { exOpts with includeTypechangeTrees := true } 30 (some fileTree) (some dirTree) =
    some (.ok [⟨.typechange, b!"foo", 1, ⟨0o100644, b!"1", true⟩, ⟨0o40000, zeroId, false⟩⟩, ⟨.added, b!"foo/x", 1, noFile, ⟨0o100644, b!"2", true⟩⟩]) := by decide +kernel
-- but not if there is a path between "foo" and "foo/": the file is just deleted
example : (treeToTree clashStore { exOpts with includeTypechangeTrees := true } 30 (some fileTree) (some dirTree2)).map (fun r => match r with | .ok ds => ds.map (fun d => (d.status, d.path)) | _ => []) =
    some [(.deleted, b!"foo"), (.added, b!"foo-a"), (.added, b!"foo/x")] := by decide +kernel
-- with GIT_DIFF_REVERSE, the mode of the file is overwritten, not that of the missing side
example : treeToTree clashStore { exOpts with includeTypechangeTrees := true, reverse := true } 30 (some fileTree) (some dirTree) =
    some (.ok [⟨.typechange, b!"foo", 1, noFile, ⟨0o40000, b!"1", true⟩⟩, ⟨.deleted, b!"foo/x", 1, ⟨0o100644, b!"2", true⟩, noFile⟩]) := by decide +kernel

end Verif.TreeDiff
