import Verif.Checkout.LemmasAct
/-! # C43: checkout without force does not lose changes -/
namespace Verif.Checkout
open Spec B

/-! ### the rules, without force -/

/-- the action after `actionCommon` -/
def commonAct (data : Data) (a : Action) (d : Delta) (wd : Option Wd) : Action :=
  { remove := (a.remove && !data.strategy.updateOnly) || (a.updateBlob && ((decide (d.new.mode = modeLink) && wd.isSome) ||
      (match wd with | none => false | some w => isExec w.mode != isExec d.new.mode)))
    updateBlob := a.updateBlob && !isGitlink d.new.mode
    updateSubmodule := a.updateSubmodule || (a.updateBlob && isGitlink d.new.mode)
    conflict := a.conflict }

theorem common_eq {data : Data} {a b : Action} {d : Delta} {wd : Option Wd} (h : actionCommon data a d wd = .ok b) : b = commonAct data a d wd := by
  unfold actionCommon at h
  obtain ⟨_, _, h⟩ := bind_ok_inv h
  rw [← Res.ok.inj h]
  clear h
  obtain ⟨r, u, sm, c⟩ := a
  unfold commonAct commonBits
  cases data.strategy.updateOnly <;> cases u <;> cases isGitlink d.new.mode <;> by_cases hl : d.new.mode = modeLink <;> cases wd <;>
    simp [hl]
  all_goals (split <;> simp_all)

theorem notify_common {data : Data} {a b : Action} {d : Delta} {wd : Option Wd} (h : actionCommon data a d wd = .ok b) (hu : a.updateBlob = false) :
    b.updateBlob = false ∧ (b.remove = true → a.remove = true) ∧ b.conflict = a.conflict := by
  rw [common_eq h]
  unfold commonAct
  rw [hu]
  simp
  exact fun h _ => h

theorem common_none {data : Data} {a b : Action} {d : Delta} (h : actionCommon data a d none = .ok b) : (b.remove = true → a.remove = true) := by
  rw [common_eq h]
  unfold commonAct
  simp
  exact fun h _ => h

theorem modified_of_changed {data : Data} {w : Wd} {d : Delta} (hm : w.mode ≠ modeTree) (hc : w.mode ≠ modeCommit) (hh : Honest data w)
    (h : Changed w d) : isWorkdirModified data d.old d.new w = true := by
  obtain ⟨c, h1, h2, h3⟩ := h
  have hb : baseOrNew c d.old d.new = false := by
    unfold baseOrNew
    simp only [decide_eq_false_iff_not]
    rintro (h | h)
    · exact h2 h.symm
    · exact h3 h.symm
  have slow : (if d.old.size ≠ 0 ∧ w.size ≠ d.old.size then true
      else if w.mode = modeTree then false
      else if filemodeChanged d.old.mode w.mode data.respectFilemode then true
      else match w.hash with
        | none => false
        | some id => !(baseOrNew id d.old d.new)) = true := by
    rw [h1]
    dsimp only
    rw [hb, if_neg hm]
    split
    · rfl
    · split <;> rfl
  unfold isWorkdirModified
  rw [if_neg hc]
  dsimp only
  cases hi : w.index with
  | none => exact slow
  | some ie =>
    dsimp only
    by_cases hg : (!ie.newer) = true ∧ w.mtime = ie.mtime ∧ w.size = ie.size ∧ (!(filemodeChanged w.mode ie.mode data.respectFilemode)) = true
    · rw [if_pos hg]
      have := hh ie hi (by simpa using hg.1) hg.2.1 hg.2.2.1 (by simpa using hg.2.2.2)
      rw [h1] at this
      injection this with this
      rw [← this, hb]
      rfl
    · rw [if_neg hg]; exact slow

theorem unmodified_of_unchanged {data : Data} {w : Wd} {d : Delta} (hm : w.mode ≠ modeTree) (hc : w.mode ≠ modeCommit) (hh : Honest data w)
    (h : Unchanged data w d) : isWorkdirModified data d.old d.new w = false := by
  have hb : baseOrNew d.old.id d.old d.new = true := by unfold baseOrNew; simp
  have slow : (if d.old.size ≠ 0 ∧ w.size ≠ d.old.size then true
      else if w.mode = modeTree then false
      else if filemodeChanged d.old.mode w.mode data.respectFilemode then true
      else match w.hash with
        | none => false
        | some id => !(baseOrNew id d.old d.new)) = false := by
    rw [h.hash]
    dsimp only
    rw [hb, if_neg hm, h.mode, if_neg]
    · rfl
    · rintro ⟨h1, h2⟩
      rcases h.size with h3 | h3
      · exact h1 h3
      · exact h2 h3
  unfold isWorkdirModified
  rw [if_neg hc]
  dsimp only
  cases hi : w.index with
  | none => exact slow
  | some ie =>
    dsimp only
    by_cases hg : (!ie.newer) = true ∧ w.mtime = ie.mtime ∧ w.size = ie.size ∧ (!(filemodeChanged w.mode ie.mode data.respectFilemode)) = true
    · rw [if_pos hg]
      have h1 := hh ie hi (by simpa using hg.1) hg.2.1 hg.2.2.1 (by simpa using hg.2.2.2)
      have h2 := h.index ie hi (by simpa using hg.1) hg.2.1 hg.2.2.1 (by simpa using hg.2.2.2)
      rw [h.hash] at h1
      injection h1 with h1
      rw [← h1, hb, h2]
      rfl
    · rw [if_neg hg]; exact slow

/-- A protected file is not touched by the rule for its path; a delta that would have changed it is a conflict. -/
theorem withWd_protected {data : Data} (hs : Safe data) {w : Wd} {d : Delta} {a : Action} (hm : w.mode ≠ modeTree) (hc : w.mode ≠ modeCommit)
    (hh : Honest data w) (hp : Protected data w d) (h : actionWithWd data d w = .ok a) :
    a.remove = false ∧ a.updateBlob = false ∧
    (data.strategy.none = false → d.status ≠ .unmodified → d.status ≠ .other → a.conflict = true) := by
  unfold actionWithWd at h
  by_cases hn : data.strategy.none = true
  · rw [if_pos hn] at h
    injection h with h
    subst h
    exact ⟨rfl, rfl, fun h => absurd hn (by simp [h])⟩
  rw [if_neg hn] at h
  dsimp only at h
  obtain ⟨b, h1, h2⟩ := bind_ok_inv h
  have key : b.remove = false ∧ b.updateBlob = false ∧ (d.status ≠ .unmodified → d.status ≠ .other → b.conflict = true) := by
    unfold Protected at hp
    rw [hs.force] at h1
    cases hst : d.status <;> rw [hst] at h1 hp <;> dsimp only at h1 hp
    · split at h1
      · obtain ⟨_, _, h1⟩ := bind_ok_inv h1
        injection h1 with h1
        subst h1
        exact ⟨rfl, rfl, by simp⟩
      · injection h1 with h1
        subst h1
        exact ⟨rfl, rfl, by simp⟩
    · split at h1
      · rename_i hig
        rcases hp with hp | hp
        · rw [hp] at hig; cases hig
        · rw [hp] at h1
          injection h1 with h1
          subst h1
          exact ⟨rfl, rfl, fun _ _ => rfl⟩
      · injection h1 with h1
        subst h1
        exact ⟨rfl, rfl, fun _ _ => rfl⟩
    · rw [modified_of_changed hm hc hh hp] at h1
      injection h1 with h1
      subst h1
      exact ⟨rfl, rfl, fun _ _ => rfl⟩
    · rw [modified_of_changed hm hc hh hp, if_pos ⟨hc, rfl⟩] at h1
      injection h1 with h1
      subst h1
      exact ⟨rfl, rfl, fun _ _ => rfl⟩
    · injection h1 with h1
      rw [modified_of_changed hm hc hh hp, if_neg hm, if_neg hc] at h1
      subst h1
      simp only [Bool.false_eq_true, if_false, if_true, ite_self]
      split <;> exact ⟨rfl, rfl, fun _ _ => rfl⟩
    · injection h1 with h1
      subst h1
      exact ⟨rfl, rfl, by simp⟩
  obtain ⟨k1, k2, k3⟩ := key
  obtain ⟨g1, g2, g3⟩ := notify_common h2 k2
  refine ⟨?_, g1, fun _ h4 h5 => by rw [g3]; exact k3 h4 h5⟩
  cases hr : a.remove
  · rfl
  · rw [g2 hr] at k1; cases k1

theorem noWd_keeps {data : Data} {d : Delta} {a : Action} (h : actionNoWd data d = .ok a) (hd : d.status ≠ .deleted) : a.remove = false := by
  unfold actionNoWd at h
  split at h
  · injection h with h; subst h; rfl
  obtain ⟨b, h1, h2⟩ := bind_ok_inv h
  have : b.remove = false := by
    cases hst : d.status <;> rw [hst] at h1 <;> dsimp only at h1
    · obtain ⟨_, _, h1⟩ := bind_ok_inv h1
      injection h1 with h1
      subst h1
      split <;> rfl
    · injection h1 with h1; subst h1; rfl
    · exact absurd hst hd
    · injection h1 with h1; subst h1; split <;> rfl
    · injection h1 with h1; subst h1; split <;> rfl
    · injection h1 with h1; subst h1; rfl
  cases hr : a.remove
  · rfl
  · rw [common_none h2 hr] at this; cases this

theorem blocker_keeps {data : Data} (hs : Safe data) {d : Delta} {h : Wd} {a : Action} (he : actionBlocker data d h = .ok a) : a.remove = false := by
  unfold actionBlocker at he
  split at he
  · injection he with he; subst he; rfl
  obtain ⟨b, h1, h2⟩ := bind_ok_inv he
  have : b.remove = false ∧ b.updateBlob = false := by
    rw [hs.force] at h1
    cases hst : d.status <;> rw [hst] at h1 <;> dsimp only at h1
    · obtain ⟨_, _, h1⟩ := bind_ok_inv h1
      injection h1 with h1
      subst h1
      exact ⟨rfl, rfl⟩
    all_goals (injection h1 with h1; subst h1; exact ⟨rfl, rfl⟩)
  obtain ⟨_, g, _⟩ := notify_common h2 this.2
  cases hr : a.remove
  · rfl
  · rw [g hr] at this; cases this.1

theorem dir_keeps {data : Data} (hs : Safe data) {d : Delta} {h : Wd} {a : Action} (he : actionDir data d h = .ok a) (hd : d.status ≠ .typechange)
    (hi : h.ignored = false ∨ data.strategy.dontOverwriteIgnored = true) : a.remove = false := by
  unfold actionDir at he
  split at he
  · injection he with he; subst he; rfl
  dsimp only at he
  obtain ⟨b, h1, h2⟩ := bind_ok_inv he
  have hocc : ∀ x : Action, (if d.old.mode = modeCommit then .NONE
      else if d.new.mode ≠ modeTree then
        if h.ignored then (if data.strategy.dontOverwriteIgnored then .CONFLICT else .REMOVE_AND_UPDATE)
        else if data.strategy.force then .REMOVE_AND_UPDATE else .CONFLICT
      else .NONE) = x → x.remove = false ∧ x.updateBlob = false := by
    rintro x rfl
    rw [hs.force]
    split
    · exact ⟨rfl, rfl⟩
    split
    · split
      · rename_i hig
        rcases hi with hi | hi
        · rw [hi] at hig; cases hig
        · rw [hi]; exact ⟨rfl, rfl⟩
      · exact ⟨rfl, rfl⟩
    · exact ⟨rfl, rfl⟩
  have : b.remove = false ∧ b.updateBlob = false := by
    cases hst : d.status <;> rw [hst] at h1 <;> dsimp only at h1
    · obtain ⟨_, _, h1⟩ := bind_ok_inv h1
      obtain ⟨_, _, h1⟩ := bind_ok_inv h1
      injection h1 with h1
      rw [hs.force] at h1
      subst h1
      exact ⟨rfl, rfl⟩
    · injection h1 with h1; exact hocc b h1
    · split at h1
      · obtain ⟨_, _, h1⟩ := bind_ok_inv h1
        injection h1 with h1
        subst h1
        exact ⟨rfl, rfl⟩
      · injection h1 with h1; subst h1; exact ⟨rfl, rfl⟩
    · injection h1 with h1; exact hocc b h1
    · exact absurd hst hd
    · injection h1 with h1; subst h1; exact ⟨rfl, rfl⟩
  obtain ⟨_, g, _⟩ := notify_common h2 this.2
  cases hr : a.remove
  · rfl
  · rw [g hr] at this; cases this.1

/-! ### a file and the deltas around it -/

theorem below_trans {a b c : Bytes} (h1 : Below a b) (h2 : Below b c) : Below a c :=
  h2.trans ((List.prefix_append _ _).trans h1)

theorem not_below_file {wds : List Wd} (hw : WorkdirOK wds) {x w : Wd} (hx : x ∈ wds) (hm : w ∈ wds) : ¬ Below x.path w.path := by
  intro hb
  obtain ⟨t, ht, hp⟩ := hw.parents x hx w.path hb
  exact hw.unique w hm t ht hp

theorem loop_of_checkout {data : Data} (hs : Safe data) {ds : List Delta} {wds : List Wd} {as : List Action} {q : List Bytes} (hd : DeltasOK ds)
    (hw : WorkdirOK wds) (h : getActions data ds wds = .ok (as, q)) :
    as.length = ds.length ∧ q = [] ∧ ((∃ a ∈ as, a.conflict = true) → data.strategy.allowConflicts = true) ∧
    ∀ d a, (d, a) ∈ ds.zip as → verifyPaths data a d = true ∧
      ∃ s, Rule data d s a ∧ s.Sublist wds ∧ ∀ x ∈ wds, x ∉ s → ∃ e ∈ ds, e.path < d.path ∧
        (x.path < e.path ∨ x.path = e.path ∨ (e.status = .typechange ∧ Below x.path e.path)) := by
  unfold getActions at h
  obtain ⟨⟨as1, st, q1⟩, h1, h⟩ := bind_ok_inv h
  dsimp only at h
  obtain ⟨q2, h2, h⟩ := bind_ok_inv h
  have hq := remaining_safe hs _ _ _ _ h2
  obtain ⟨l1, l2, l3⟩ := loop_rules hs hd (WorkdirOK.inv hw ds) h1
  split at h
  · cases h
  · rename_i hc
    injection h with h
    injection h with h3 h4
    subst h3 h4
    refine ⟨l1, by rw [hq, l2], ?_, l3⟩
    rintro ⟨a, ha, hac⟩
    cases hal : data.strategy.allowConflicts
    · exact absurd ⟨List.any_eq_true.mpr ⟨a, ha, hac⟩, by simp [hal]⟩ hc
    · rfl

/-- The file at a delta's path is what the delta's action is decided on. -/
theorem pairing {data : Data} {ds : List Delta} {wds : List Wd} (hw : WorkdirOK wds) {w : Wd} {d : Delta}
    {a : Action} {s : List Wd} (hm : w ∈ wds) (hp : d.path = w.path) (hr : Rule data d s a) (hsub : s.Sublist wds)
    (hab : ∀ e ∈ ds, Below w.path e.path → e.status ≠ .typechange)
    (hall : ∀ x ∈ wds, x ∉ s → ∃ e ∈ ds, e.path < d.path ∧ (x.path < e.path ∨ x.path = e.path ∨ (e.status = .typechange ∧ Below x.path e.path))) :
    actionWithWd data d w = .ok a := by
  have hin : w ∈ s := by
    refine Decidable.byContradiction fun hn => ?_
    obtain ⟨e, he, hlt, h1 | h1 | h1⟩ := hall w hm hn
    · rw [hp] at hlt; exact lt_irrefl' (lt_trans' h1 hlt)
    · rw [hp, h1] at hlt; exact lt_irrefl' hlt
    · exact hab e he h1.2 h1.1
  cases hr with
  | noWd h1 h2 => exact absurd hp.symm (h2 w hin)
  | blocker h h1 h2 h3 h4 =>
    rw [hp] at h3
    exact absurd h3 (not_below_file hw hm (hsub.subset h1))
  | withWd h h1 h2 h3 =>
    have : h = w := by
      have hpw := hw.sorted
      refine Decidable.byContradiction fun hne => ?_
      have h4 : h.path = w.path := by rw [h2, hp]
      obtain ⟨i, hi, rfl⟩ := List.getElem_of_mem (hsub.subset h1)
      obtain ⟨j, hj, rfl⟩ := List.getElem_of_mem hm
      rw [List.pairwise_iff_getElem] at hpw
      rcases Nat.lt_trichotomy i j with h | h | h
      · exact ne_of_lt (hpw i j hi hj h) h4
      · subst h; exact hne rfl
      · exact ne_of_lt (hpw j i hj hi h) h4.symm
    rwa [this] at h3
  | typechange h h1 h2 h3 h4 => rw [hp] at h2; exact absurd h2 (hw.unique w hm h (hsub.subset h1))
  | emptyDir h h1 h2 h3 h4 => rw [hp] at h2; exact absurd h2 (hw.unique w hm h (hsub.subset h1))
  | dir h h1 h2 h3 h4 => rw [hp] at h2; exact absurd h2 (hw.unique w hm h (hsub.subset h1))

theorem rmdir_other {fs : Files} {q p : Bytes} (h1 : p ≠ q) (h2 : ¬ Below p q) (h3 : ¬ Below q p) : rmdirR fs q p = fs p := by
  unfold rmdirR
  rw [if_neg, if_neg]
  · exact fun h => h3 (isPrefixOf_iff'.mp h)
  · rintro (h | h)
    · exact h1 h
    · exact h2 (isPrefixOf_iff'.mp h)

theorem removeOld_other {p : Bytes} (work : List (Delta × Action)) : ∀ (fs : Files),
    (∀ w ∈ work, w.2.remove = true → p ≠ w.1.path ∧ ¬ Below p w.1.path ∧ ¬ Below w.1.path p) →
    ((work.filter (·.2.remove)).foldl (fun fs w => rmdirR fs w.1.path) fs) p = fs p := by
  induction work with
  | nil => intro fs _; rfl
  | cons x work ih =>
    intro fs h
    rw [List.filter_cons]
    split
    · rename_i hr
      rw [List.foldl_cons, ih _ (fun w hw => h w (List.mem_cons_of_mem _ hw))]
      obtain ⟨h1, h2, h3⟩ := h x (by simp) hr
      exact rmdir_other h1 h2 h3
    · exact ih _ (fun w hw => h w (List.mem_cons_of_mem _ hw))

theorem write_other {p : Bytes} (done : Delta → Bool) (work : List (Delta × Action)) : ∀ (fs : Files), (∀ w ∈ work, w.1.path ≠ p) →
    (work.foldl (fun fs w => writeBlob fs w.1 (done w.1)) fs) p = fs p := by
  induction work with
  | nil => intro fs _; rfl
  | cons x work ih =>
    intro fs h
    rw [List.foldl_cons, ih _ (fun w hw => h w (List.mem_cons_of_mem _ hw))]
    unfold writeBlob
    rw [if_neg]
    exact fun h' => h x (by simp) h'.2.symm

theorem createNew_other {p : Bytes} (done : Delta → Bool) (work : List (Delta × Action)) (fs : Files)
    (h : ∀ w ∈ work, w.2.updateBlob = true → w.1.path ≠ p) : createNew fs work done p = fs p := by
  unfold createNew
  dsimp only
  have h' : ∀ w ∈ work.filter (·.2.updateBlob), w.1.path ≠ p := fun w hw => h w (List.mem_filter.mp hw).1 (List.mem_filter.mp hw).2
  rw [write_other, write_other]
  · exact fun w hw => h' w (List.mem_filter.mp hw).1
  · exact fun w hw => h' w (List.mem_filter.mp hw).1

/-- **C43.** A checkout without `FORCE` and without the flags that ask for untracked or ignored files to be removed does not change or remove
a file of the work directory that is user data: one no tree knows, one that differs from the baseline and from the target (if the checkout
would touch it), or an untracked one in the way of a new file. This holds whatever else there is in the trees, the index, the work
directory, whatever the other flags say, which writes fail and whether the checkout succeeds - but see `C43_lost_*` for the cases where files
and directories were exchanged. -/
theorem C43_kept {data : Data} (hs : Safe data) {ds : List Delta} {wds : List Wd} (hd : DeltasOK ds) (hw : WorkdirOK wds) {w : Wd} (hm : w ∈ wds)
    (hfile : w.mode ≠ modeTree ∧ w.mode ≠ modeCommit) (hh : Honest data w) (hprot : ∀ d ∈ ds, d.path = w.path → Protected data w d)
    (hbelow : NoDeletionBelow ds w) (habove : DirectoriesAbove data ds wds w) (fs : Files) (done : Delta → Bool) :
    (checkout data ds wds fs done).2 w.path = fs w.path := by
  unfold checkout
  cases hg : getActions data ds wds with
  | err e => rfl
  | ub => rfl
  | ok r =>
    obtain ⟨as, q⟩ := r
    dsimp only
    obtain ⟨_, hq, _, hz⟩ := loop_of_checkout hs hd hw hg
    subst hq
    have hacts : ∀ x ∈ ds.zip as, x.1.path = w.path → x.2.remove = false ∧ x.2.updateBlob = false := by
      rintro ⟨d, a⟩ hx hp
      obtain ⟨_, s, hr, hsub, hall⟩ := hz d a hx
      have hd' := (List.of_mem_zip hx).1
      have := pairing hw hm hp hr hsub (fun e he hb => (habove e he hb).2.1) hall
      have := withWd_protected hs hfile.1 hfile.2 hh (hprot d hd' hp) this
      exact ⟨this.1, this.2.1⟩
    rw [createNew_other]
    · unfold removeOld
      rw [List.foldl_nil]
      refine removeOld_other _ _ ?_
      rintro ⟨d, a⟩ hx hrem
      have hd' := (List.of_mem_zip hx).1
      obtain ⟨_, s, hr, hsub, hall⟩ := hz d a hx
      dsimp only at hrem ⊢
      refine ⟨fun hp => ?_, fun hb => ?_, fun hb => ?_⟩
      · rw [(hacts _ hx hp.symm).1] at hrem; cases hrem
      · -- the delta's path is a directory above
        obtain ⟨h1, h2, h3⟩ := habove d hd' hb
        have hno : a.remove = false := by
          cases hr with
          | noWd g1 g2 => exact noWd_keeps g1 h1
          | blocker h g1 g2 g3 g4 => exact blocker_keeps hs g4
          | withWd h g1 g2 g3 =>
            rw [← g2] at hb
            exact absurd hb (not_below_file hw hm (hsub.subset g1))
          | typechange h g1 g2 g3 g4 => exact absurd g3 h2
          | emptyDir h g1 g2 g3 g4 =>
            exfalso
            have := hw.empty h (hsub.subset g1) g3 w hm (by rw [g2]; exact hb)
            subst this
            exact hfile.1 ((hw.tree w hm).mpr (by rw [g2]; simp))
          | dir h g1 g2 g3 g4 => exact dir_keeps hs g4 h2 (h3 h (hsub.subset g1) g2)
        rw [hno] at hrem; cases hrem
      · -- the file is in the place of a directory
        have h1 := hbelow d hd' hb
        have hno : a.remove = false := by
          cases hr with
          | noWd g1 g2 => exact noWd_keeps g1 h1
          | blocker h g1 g2 g3 g4 => exact blocker_keeps hs g4
          | withWd h g1 g2 g3 =>
            rw [← g2] at hb
            exact absurd hb (not_below_file hw (hsub.subset g1) hm)
          | typechange h g1 g2 g3 g4 =>
            have : Below h.path w.path := by rw [g2]; exact hb.trans (List.prefix_append _ _)
            exact absurd this (not_below_file hw (hsub.subset g1) hm)
          | emptyDir h g1 g2 g3 g4 =>
            have : Below h.path w.path := by rw [g2]; exact hb.trans (List.prefix_append _ _)
            exact absurd this (not_below_file hw (hsub.subset g1) hm)
          | dir h g1 g2 g3 g4 =>
            have : Below h.path w.path := by rw [g2]; exact hb.trans (List.prefix_append _ _)
            exact absurd this (not_below_file hw (hsub.subset g1) hm)
        rw [hno] at hrem; cases hrem
    · intro x hx hu hp
      rw [(hacts x hx hp).2] at hu; cases hu

theorem mem_zip_left {α β : Type} {x : α} : ∀ {l : List α} {m : List β}, x ∈ l → m.length = l.length → ∃ y, (x, y) ∈ l.zip m
  | a :: l, b :: m, h, hl => by
    rcases List.mem_cons.mp h with rfl | h
    · exact ⟨b, by simp⟩
    · obtain ⟨y, hy⟩ := mem_zip_left h (by simpa using hl)
      exact ⟨y, by simp [hy]⟩
  | a :: l, [], h, hl => by simp at hl

/-- **C43.** Without `ALLOW_CONFLICTS`, a checkout that would have to overwrite or remove user data fails, and then no file changes. -/
theorem C43_refused {data : Data} (hs : Safe data) {ds : List Delta} {wds : List Wd} (hd : DeltasOK ds) (hw : WorkdirOK wds) {w : Wd} (hm : w ∈ wds)
    (hfile : w.mode ≠ modeTree ∧ w.mode ≠ modeCommit) (hh : Honest data w) {d : Delta} (hin : d ∈ ds) (hp : d.path = w.path)
    (hprot : Protected data w d) (hst : d.status ≠ .unmodified ∧ d.status ≠ .other)
    (habove : ∀ e ∈ ds, Below w.path e.path → e.status ≠ .typechange)
    (hnone : data.strategy.none = false) (hac : data.strategy.allowConflicts = false) (fs : Files) (done : Delta → Bool) :
    (checkout data ds wds fs done).1 ≠ .ok () ∧ (checkout data ds wds fs done).2 = fs := by
  unfold checkout
  cases hg : getActions data ds wds with
  | err e => exact ⟨by simp, rfl⟩
  | ub => exact ⟨by simp, rfl⟩
  | ok r =>
    exfalso
    obtain ⟨as, q⟩ := r
    obtain ⟨hl, _, hcon, hz⟩ := loop_of_checkout hs hd hw hg
    obtain ⟨a, ha⟩ := mem_zip_left hin hl
    obtain ⟨_, s, hr, hsub, hall⟩ := hz d a ha
    have h1 := pairing hw hm hp hr hsub habove hall
    have h2 := (withWd_protected hs hfile.1 hfile.2 hh hprot h1).2.2 hnone hst.1 hst.2
    rw [hcon ⟨a, (List.of_mem_zip ha).2, h2⟩] at hac
    cases hac

/-- **C43.** A checkout that fails before it starts to write (a conflict, an invalid path, a notification that says stop) changes no file. -/
theorem C43_failed (data : Data) (ds : List Delta) (wds : List Wd) (fs : Files) (done : Delta → Bool)
    (h : (checkout data ds wds fs done).1 ≠ .ok ()) : (checkout data ds wds fs done).2 = fs := by
  unfold checkout at *
  cases hg : getActions data ds wds with
  | err e => rfl
  | ub => rfl
  | ok r => rw [hg] at h; exact absurd rfl h

theorem write_at {done : Delta → Bool} {d : Delta} (hdone : done d = true) (work : List (Delta × Action)) : ∀ (fs : Files),
    (∀ x ∈ work, x.1.path = d.path → x.1 = d) → ((∃ x ∈ work, x.1 = d) ∨ fs d.path = some d.new.id) →
    (work.foldl (fun fs w => writeBlob fs w.1 (done w.1)) fs) d.path = some d.new.id := by
  induction work with
  | nil => intro fs _ h; rcases h with ⟨x, hx, _⟩ | h; (cases hx); exact h
  | cons x work ih =>
    intro fs hu h
    rw [List.foldl_cons]
    refine ih _ (fun y hy => hu y (List.mem_cons_of_mem _ hy)) ?_
    by_cases hx : x.1.path = d.path
    · right
      rw [hu x (by simp) hx]
      unfold writeBlob
      rw [if_pos ⟨hdone, rfl⟩]
    · rcases h with ⟨y, hy, he⟩ | h
      · rcases List.mem_cons.mp hy with rfl | hy
        · rw [he] at hx; exact absurd rfl hx
        · exact .inl ⟨y, hy, he⟩
      · right
        unfold writeBlob
        rw [if_neg (fun h' => hx h'.2.symm)]
        exact h

theorem removeOld_at {p : Bytes} (work : List (Delta × Action)) : ∀ (fs : Files),
    ((∃ x ∈ work, x.2.remove = true ∧ x.1.path = p) ∨ fs p = none) →
    ((work.filter (·.2.remove)).foldl (fun fs w => rmdirR fs w.1.path) fs) p = none := by
  induction work with
  | nil => intro fs h; rcases h with ⟨x, hx, _⟩ | h; (cases hx); exact h
  | cons x work ih =>
    intro fs h
    have stays : ∀ q, fs p = none → rmdirR fs q p = none := by
      intro q hq
      unfold rmdirR
      split
      · rfl
      · split
        · rfl
        · exact hq
    rw [List.filter_cons]
    rcases h with ⟨y, hy, hr, hp⟩ | h
    · rcases List.mem_cons.mp hy with rfl | hy
      · rw [if_pos hr, List.foldl_cons]
        refine ih _ (.inr ?_)
        unfold rmdirR
        rw [if_pos (.inl hp.symm)]
      · split
        · rw [List.foldl_cons]; exact ih _ (.inl ⟨y, hy, hr, hp⟩)
        · exact ih _ (.inl ⟨y, hy, hr, hp⟩)
    · split
      · rw [List.foldl_cons]; exact ih _ (.inr (stays _ h))
      · exact ih _ (.inr h)

theorem delta_unique {ds : List Delta} (hd : DeltasOK ds) {d e : Delta} (h1 : d ∈ ds) (h2 : e ∈ ds) (hp : e.path = d.path) : e = d := by
  have hpw := hd.sorted
  refine Decidable.byContradiction fun hne => ?_
  obtain ⟨i, hi, rfl⟩ := List.getElem_of_mem h1
  obtain ⟨j, hj, rfl⟩ := List.getElem_of_mem h2
  rw [List.pairwise_iff_getElem] at hpw
  rcases Nat.lt_trichotomy i j with h | h | h
  · exact ne_of_lt (hpw i j hi hj h) hp.symm
  · subst h; exact hne rfl
  · exact ne_of_lt (hpw j i hj hi h) hp

/-- **C43.** And a successful checkout does its work: a file as the baseline has it gets the target's content if its write is done, and is
gone if the target does not have it. -/
theorem C43_updated {data : Data} (hs : Safe data) {ds : List Delta} {wds : List Wd} (hd : DeltasOK ds) (hw : WorkdirOK wds) {w : Wd} (hm : w ∈ wds)
    (hfile : w.mode ≠ modeTree ∧ w.mode ≠ modeCommit) (hh : Honest data w) {d : Delta} (hin : d ∈ ds) (hp : d.path = w.path)
    (hun : Unchanged data w d) (habove : ∀ e ∈ ds, Below w.path e.path → e.status ≠ .typechange) (hnone : data.strategy.none = false)
    (fs : Files) (done : Delta → Bool) (hok : (checkout data ds wds fs done).1 = .ok ()) :
    (d.status = .modified → isGitlink d.new.mode = false → done d = true → (checkout data ds wds fs done).2 w.path = some d.new.id) ∧
    (d.status = .deleted → data.strategy.updateOnly = false → (checkout data ds wds fs done).2 w.path = none) := by
  unfold checkout at hok ⊢
  cases hg : getActions data ds wds with
  | err e => rw [hg] at hok; cases hok
  | ub => rw [hg] at hok; cases hok
  | ok r =>
    obtain ⟨as, q⟩ := r
    dsimp only
    obtain ⟨hl, hq, _, hz⟩ := loop_of_checkout hs hd hw hg
    subst hq
    obtain ⟨a, ha⟩ := mem_zip_left hin hl
    obtain ⟨_, s, hr, hsub, hall⟩ := hz d a ha
    have h1 := pairing hw hm hp hr hsub habove hall
    have hmod := unmodified_of_unchanged hfile.1 hfile.2 hh hun
    unfold actionWithWd at h1
    rw [hnone, if_neg (by simp)] at h1
    have huniq : ∀ x ∈ ds.zip as, x.1.path = d.path → x = (d, a) := by
      rintro ⟨e, b⟩ hx he
      have : e = d := delta_unique hd hin (List.of_mem_zip hx).1 he
      subst this
      obtain ⟨i, hi, hxe⟩ := List.getElem_of_mem hx
      obtain ⟨j, hj, hae⟩ := List.getElem_of_mem ha
      have hi' := hi
      have hj' := hj
      rw [List.length_zip] at hi' hj'
      have e1 : (ds.zip as)[i].1 = ds[i] := by rw [List.getElem_zip]
      have e2 : (ds.zip as)[j].1 = ds[j] := by rw [List.getElem_zip]
      rw [hxe] at e1
      rw [hae] at e2
      have hij : i = j := by
        have hpw := List.pairwise_iff_getElem.mp hd.sorted
        rcases Nat.lt_trichotomy i j with h | h | h
        · have := hpw i j (by omega) (by omega) h
          rw [← e1, ← e2] at this; exact (lt_irrefl' this).elim
        · exact h
        · have := hpw j i (by omega) (by omega) h
          rw [← e1, ← e2] at this; exact (lt_irrefl' this).elim
      subst hij
      rw [← hxe, hae]
    constructor
    · intro hst hgl hdone
      rw [hst] at h1
      dsimp only at h1
      rw [hmod, if_neg (by simp)] at h1
      have h1 : actionCommon data .UPDATE_BLOB d (some w) = .ok a := h1
      have hub : a.updateBlob = true := by
        rw [common_eq h1]
        simp [commonAct, Action.UPDATE_BLOB, hgl]
      rw [← hp]
      unfold createNew
      dsimp only
      have hmem : (d, a) ∈ (ds.zip as).filter (·.2.updateBlob) := List.mem_filter.mpr ⟨ha, hub⟩
      have hu2 : ∀ (f : Delta × Action → Bool), ∀ x ∈ ((ds.zip as).filter (·.2.updateBlob)).filter f, x.1.path = d.path → x.1 = d := by
        intro f x hx hxp
        rw [huniq x (List.mem_filter.mp (List.mem_filter.mp hx).1).1 hxp]
      refine write_at hdone _ _ (hu2 _) ?_
      by_cases hlink : d.new.mode / 0o010000 % 16 = 0o12
      · exact .inl ⟨(d, a), List.mem_filter.mpr ⟨hmem, by simpa using hlink⟩, rfl⟩
      · right
        exact write_at hdone _ _ (hu2 _) (.inl ⟨(d, a), List.mem_filter.mpr ⟨hmem, by simpa using hlink⟩, rfl⟩)
    · intro hst huo
      rw [hst] at h1
      dsimp only at h1
      rw [hmod, if_neg (by simp)] at h1
      have h1 : actionCommon data .REMOVE d (some w) = .ok a := h1
      have hub : a.updateBlob = false ∧ a.remove = true := by
        rw [common_eq h1]
        simp [commonAct, Action.REMOVE, huo]
      rw [createNew_other]
      · unfold removeOld
        rw [List.foldl_nil]
        exact removeOld_at _ _ (.inl ⟨(d, a), ha, hub.2, hp⟩)
      · intro x hx hxu hxp
        rw [huniq x hx (by rw [hxp, hp]), hub.1] at hxu
        cases hxu

/-- **C43.** Every path that is written or removed for a delta of a checkout that goes ahead is valid for a work directory (see C42): nothing
outside of the work directory or in `.git` is touched. -/
theorem C43_paths {data : Data} (hs : Safe data) {ds : List Delta} {wds : List Wd} (hd : DeltasOK ds) (hw : WorkdirOK wds) {as : List Action}
    {q : List Bytes} (h : getActions data ds wds = .ok (as, q)) {d : Delta} {a : Action} (hin : (d, a) ∈ ds.zip as) :
    q = [] ∧
    (a.remove = true → PathValid.isValid data.repo d.path (d.old.mode / 0o010000 % 16 = 0o12) PathValid.workdirDefaults = true) ∧
    (a.updateBlob = true ∨ a.updateSubmodule = true ∨ a.conflict = true →
      PathValid.isValid data.repo d.path (d.new.mode / 0o010000 % 16 = 0o12) PathValid.workdirDefaults = true) := by
  obtain ⟨_, hq, _, hz⟩ := loop_of_checkout hs hd hw h
  obtain ⟨hv, _⟩ := hz d a hin
  unfold verifyPaths at hv
  rw [Bool.and_eq_true, Bool.or_eq_true, Bool.or_eq_true] at hv
  refine ⟨hq, fun hr => ?_, fun hu => ?_⟩
  · rcases hv.1 with h | h
    · rw [hr] at h; cases h
    · exact h
  · rcases hv.2 with h | h
    · exfalso
      rcases hu with hu | hu | hu <;> rw [hu] at h <;> revert h <;> cases a.updateBlob <;> cases a.updateSubmodule <;> cases a.conflict <;> simp
    · exact h

/-! ### the hypotheses can be met -/

/-- the default options -/
def safeData : Data := { strategy := {}, respectFilemode := true, notify := fun _ _ _ => 0, repo := none }

theorem safeData_safe : Safe safeData := ⟨rfl, rfl, rfl⟩

/-- `README` is modified in the work directory (its cached file data are old), `new` is untracked, `src/x` is as in the baseline -/
def exWds : List Wd := [
  { path := b!"README", mode := modeBlob, mtime := 7, size := 5, hash := some 77, index := some ⟨1, modeBlob, 3, 4, false⟩, tracked := true },
  { path := b!"new", mode := modeBlob, hash := some 88 },
  { path := b!"src/", mode := modeTree, tracked := true },
  { path := b!"src/x", mode := modeBlob, mtime := 3, size := 4, hash := some 5, index := some ⟨5, modeBlob, 3, 4, false⟩, tracked := true }]

/-- the target changes `README`, adds `new` and changes `src/x` -/
def exDs : List Delta := [
  ⟨b!"README", .modified, ⟨1, modeBlob, 0⟩, ⟨2, modeBlob, 0⟩⟩,
  ⟨b!"new", .added, ⟨0, 0, 0⟩, ⟨3, modeBlob, 0⟩⟩,
  ⟨b!"src/x", .modified, ⟨5, modeBlob, 0⟩, ⟨6, modeBlob, 0⟩⟩]

def exFiles : Files := fun p => if p = b!"README" then some 77 else if p = b!"new" then some 88 else if p = b!"src/x" then some 5 else none

example : DeltasOK exDs := ⟨by decide, by decide⟩
theorem exWds_ok : WorkdirOK exWds := by
  refine ⟨by decide, by decide, ?_, by decide, by decide⟩
  intro w hw q hb
  obtain ⟨t, ht⟩ := hb
  simp only [exWds, List.mem_cons, List.not_mem_nil, or_false] at hw
  refine ⟨exWds[2], by decide, ?_⟩
  rcases hw with rfl | rfl | rfl | rfl <;> revert ht <;> simp only [] <;> intro ht
  all_goals (rcases q with _ | ⟨a, _ | ⟨b, _ | ⟨c, _ | ⟨e, _ | ⟨f, _ | ⟨g, q⟩⟩⟩⟩⟩⟩ <;> simp_all [exWds])

example : ∀ d ∈ exDs, ∀ w ∈ exWds.take 2, d.path = w.path → Protected safeData w d := by
  have h1 : Changed exWds[0] exDs[0] := ⟨77, rfl, by decide, by decide⟩
  intro d hd w hw hp
  simp only [exDs, exWds, List.take, List.mem_cons, List.not_mem_nil, or_false] at hd hw
  rcases hd with rfl | rfl | rfl <;> rcases hw with rfl | rfl <;> first | exact h1 | exact .inl rfl | exact absurd hp (by decide)

example : (checkout safeData exDs exWds exFiles (fun _ => true)).1 = .err (-13) := by decide +kernel
/-- with `ALLOW_CONFLICTS` the rest is done -/
example : (let r := checkout { safeData with strategy := { allowConflicts := true } } exDs exWds exFiles (fun _ => true)
    (r.1, r.2 b!"README", r.2 b!"new", r.2 b!"src/x")) = (.ok (), some 77, some 88, some 6) := by decide +kernel
/-- with `FORCE` nothing is kept -/
example : (let r := checkout { safeData with strategy := { force := true } } exDs exWds exFiles (fun _ => true)
    (r.1, r.2 b!"README", r.2 b!"new")) = (.ok (), some 2, some 3) := by decide +kernel

/-! ### what is lost

Four cases where a checkout without force removes untracked files (and says it succeeded): `C43_kept`'s conditions on the paths above and below
are needed. -/

/-- The target has a link where the baseline has a directory: the whole directory is removed, with the untracked files in it. -/
theorem C43_lost_link :
    let ds : List Delta := [⟨b!"a", .typechange, ⟨1, modeTree, 0⟩, ⟨2, modeLink, 0⟩⟩, ⟨b!"a/b", .deleted, ⟨3, modeBlob, 0⟩, ⟨0, 0, 0⟩⟩]
    let wds : List Wd := [{ path := b!"a/", mode := modeTree, tracked := true }, { path := b!"a/b", mode := modeBlob, hash := some 3, tracked := true },
      { path := b!"a/mine", mode := modeBlob, hash := some 88 }]
    let fs : Files := fun p => if p = b!"a/b" then some 3 else if p = b!"a/mine" then some 88 else none
    (checkout safeData ds wds fs (fun _ => true)).1 = .ok () ∧ (checkout safeData ds wds fs (fun _ => true)).2 b!"a/mine" = none := by
  decide +kernel

/-- The target does not have the file `a`, which the user replaced by a directory; there is a file `a.c`, which is before that directory in
the order: the directory is removed. -/
theorem C43_lost_sibling :
    let ds : List Delta := [⟨b!"a", .deleted, ⟨1, modeBlob, 0⟩, ⟨0, 0, 0⟩⟩]
    let wds : List Wd := [{ path := b!"a.c", mode := modeBlob, hash := some 9 }, { path := b!"a/", mode := modeTree },
      { path := b!"a/mine", mode := modeBlob, hash := some 88 }]
    let fs : Files := fun p => if p = b!"a.c" then some 9 else if p = b!"a/mine" then some 88 else none
    (checkout safeData ds wds fs (fun _ => true)).1 = .ok () ∧ (checkout safeData ds wds fs (fun _ => true)).2 b!"a/mine" = none := by
  decide +kernel

/-- Without that file the directory stays. -/
theorem C43_lost_sibling_without :
    let ds : List Delta := [⟨b!"a", .deleted, ⟨1, modeBlob, 0⟩, ⟨0, 0, 0⟩⟩]
    let wds : List Wd := [{ path := b!"a/", mode := modeTree }, { path := b!"a/mine", mode := modeBlob, hash := some 88 }]
    let fs : Files := fun p => if p = b!"a/mine" then some 88 else none
    (checkout safeData ds wds fs (fun _ => true)).1 = .ok () ∧ (checkout safeData ds wds fs (fun _ => true)).2 b!"a/mine" = some 88 := by
  decide +kernel

/-- The target has a directory where the baseline has a file, which the user replaced by a directory: it is removed with what is in it. -/
theorem C43_lost_directory :
    let ds : List Delta := [⟨b!"a", .typechange, ⟨1, modeBlob, 0⟩, ⟨2, modeTree, 0⟩⟩, ⟨b!"a/b", .added, ⟨0, 0, 0⟩, ⟨3, modeBlob, 0⟩⟩]
    let wds : List Wd := [{ path := b!"a/", mode := modeTree }, { path := b!"a/mine", mode := modeBlob, hash := some 88 }]
    let fs : Files := fun p => if p = b!"a/mine" then some 88 else none
    (checkout safeData ds wds fs (fun _ => true)).1 = .ok () ∧ (checkout safeData ds wds fs (fun _ => true)).2 b!"a/mine" = none := by
  decide +kernel

/-- The user replaced the directory `f` by a file; the target keeps `f/b` and does not have `f/c`: the file is removed to delete `f/c`. -/
theorem C43_lost_blocker :
    let ds : List Delta := [⟨b!"f/b", .unmodified, ⟨1, modeBlob, 0⟩, ⟨1, modeBlob, 0⟩⟩, ⟨b!"f/c", .deleted, ⟨2, modeBlob, 0⟩, ⟨0, 0, 0⟩⟩]
    let wds : List Wd := [{ path := b!"f", mode := modeBlob, hash := some 88 }]
    let fs : Files := fun p => if p = b!"f" then some 88 else none
    (checkout safeData ds wds fs (fun _ => true)).1 = .ok () ∧ (checkout safeData ds wds fs (fun _ => true)).2 b!"f" = none := by
  decide +kernel

/-- A file that cannot be read counts as unmodified and is overwritten. -/
theorem C43_lost_unreadable :
    let ds : List Delta := [⟨b!"f", .modified, ⟨1, modeBlob, 0⟩, ⟨2, modeBlob, 0⟩⟩]
    let wds : List Wd := [{ path := b!"f", mode := modeBlob, hash := none, tracked := true }]
    let fs : Files := fun p => if p = b!"f" then some 88 else none
    (checkout safeData ds wds fs (fun _ => true)).1 = .ok () ∧ (checkout safeData ds wds fs (fun _ => true)).2 b!"f" = some 2 := by
  decide +kernel

end Verif.Checkout
