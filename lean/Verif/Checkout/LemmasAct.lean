import Verif.Checkout.Lemmas
/-! # Lemmas: which rule decides a delta -/
namespace Verif.Checkout
open Spec B

/-- how the action of a delta came about -/
inductive Rule (data : Data) (d : Delta) (st : List Wd) (a : Action) : Prop where
  | noWd : actionNoWd data d = .ok a → (∀ w ∈ st, w.path ≠ d.path) → Rule data d st a
  | blocker (h : Wd) : h ∈ st → h.mode ≠ modeTree → Below d.path h.path → actionBlocker data d h = .ok a → Rule data d st a
  | withWd (h : Wd) : h ∈ st → h.path = d.path → actionWithWd data d h = .ok a → Rule data d st a
  | typechange (h : Wd) : h ∈ st → h.path = d.path ++ [c!"/"] → d.status = .typechange → actionWithWd data d h = .ok a → Rule data d st a
  | emptyDir (h : Wd) : h ∈ st → h.path = d.path ++ [c!"/"] → h.emptyDir = true → actionDirEmpty data d = .ok a → Rule data d st a
  | dir (h : Wd) : h ∈ st → h.path = d.path ++ [c!"/"] → h.emptyDir = false → actionDir data d h = .ok a → Rule data d st a

theorem Rule.mono {data : Data} {d : Delta} {st st' : List Wd} {a : Action} (h : Rule data d st' a) (hs : ∀ x ∈ st', x ∈ st)
    (hd : ∀ x ∈ st, x ∉ st' → x.path < d.path) : Rule data d st a := by
  cases h with
  | noWd h1 h2 =>
    refine .noWd h1 fun w hw hp => ?_
    by_cases hin : w ∈ st'
    · exact h2 w hin hp
    · have := hd w hw hin
      rw [hp] at this
      exact lt_irrefl' this
  | blocker h h1 h2 h3 h4 => exact .blocker h (hs h h1) h2 h3 h4
  | withWd h h1 h2 h3 => exact .withWd h (hs h h1) h2 h3
  | typechange h h1 h2 h3 h4 => exact .typechange h (hs h h1) h2 h3 h4
  | emptyDir h h1 h2 h3 h4 => exact .emptyDir h (hs h h1) h2 h3 h4
  | dir h h1 h2 h3 h4 => exact .dir h (hs h h1) h2 h3 h4

theorem advance_length (h : Wd) (r : List Wd) : (advance (h :: r)).length ≤ r.length := by
  rw [advance_cons]
  split
  · exact (List.dropWhile_sublist _).length_le
  · exact Nat.le_refl _

theorem advanceInto_length (h : Wd) (r : List Wd) : (advanceInto (h :: r)).length ≤ r.length := by
  rw [advanceInto_cons]
  split
  · exact Nat.le_refl _
  · simp

theorem head_dir {d : Delta} {ds : List Delta} {h : Wd} {r : List Wd} (hi : Inv (d :: ds) (h :: r)) (hb : Below h.path d.path) :
    h.path = d.path ++ [c!"/"] := by
  obtain ⟨t, ht, hp⟩ := hi.parents d (by simp) h (by simp) hb
  have : h = t := by
    refine head_eq hi.sorted ht (le_antisymm (head_le hi.sorted ht) ?_)
    rw [hp]
    exact prefix_le hb
  rw [this, hp]

theorem action_rule {data : Data} {d : Delta} {ds : List Delta} (hd : DeltasOK (d :: ds)) (fuel : Nat) :
    ∀ (st : List Wd) (q : List Bytes) (a : Action) (st' : List Wd) (q' : List Bytes), Inv (d :: ds) st → st.length < fuel →
      checkoutAction data d fuel st q = .ok (a, st', q') → Rule data d st a := by
  induction fuel with
  | zero => intro st q a st' q' _ hf; omega
  | succ fuel ih =>
    intro st q a st' q' hi hf he
    have out : ∀ {x : Res Action} {s : List Wd}, (x >>= fun a => (.ok (a, s, q) : Res (Action × List Wd × List Bytes))) = .ok (a, st', q') →
        x = .ok a := by
      intro x s hx
      obtain ⟨b, hb, hx⟩ := bind_ok_inv hx
      injection hx with hx
      injection hx with hx _
      rw [hb, hx]
    cases st with
    | nil =>
      rw [checkoutAction_nil] at he
      exact .noWd (out he) (by simp)
    | cons h r =>
      rw [checkoutAction_cons] at he
      have tail : ∀ w ∈ h :: r, d.path < h.path → w.path ≠ d.path := fun w hw hlt hp => by
        have := lt_of_lt_of_le hlt (head_le hi.sorted hw)
        rw [hp] at this
        exact lt_irrefl' this
      by_cases hc : bcmp h.path d.path < 0
      · rw [if_pos hc] at he
        have hlt := bcmp_lt.mp hc
        have again : ∀ s, s.Sublist (h :: r) → (∀ x ∈ h :: r, x ∉ s → x.path < d.path) → Inv (d :: ds) s := by
          intro s hk hlt
          refine ⟨hi.sorted.sublist hk, fun w hw => hi.tree w (hk.subset hw), fun e he x hx hb => ?_⟩
          obtain ⟨t, ht, hp⟩ := hi.parents e he x (hk.subset hx) hb
          refine ⟨t, ?_, hp⟩
          by_cases hin : t ∈ s
          · exact hin
          · exfalso
            have h1 := hlt t ht hin
            rw [hp] at h1
            have h2 : d.path ≤ e.path := by
              rcases List.mem_cons.mp he with rfl | he
              · exact le_rfl
              · exact le_of_lt ((List.pairwise_cons.mp hd.sorted).1 e he)
            exact lt_irrefl' (lt_trans' (lt_of_lt_of_le h1 h2) (lt_slash _ _))
        by_cases hA : h.path.isPrefixOf d.path = true ∧ h.mode = modeTree
        · rw [if_pos hA, advanceInto_cons, if_pos hA.2] at he
          have hdrop : ∀ x ∈ h :: r, x ∉ r → x.path < d.path := fun x hx hn => by rw [mem_of_cons_not hx hn]; exact hlt
          refine (ih r q a st' q' (again r (List.sublist_cons_self _ _) hdrop) ?_ he).mono (fun x hx => List.mem_cons_of_mem _ hx) hdrop
          simp only [List.length_cons] at hf
          omega
        rw [if_neg hA] at he
        by_cases hB : h.path.isPrefixOf d.path = true ∧ PathValid.peek d.path h.path.length = c!"/"
        · rw [if_pos hB] at he
          exact .blocker h (by simp) (fun hm => hA ⟨hB.1, hm⟩) (peek_slash (isPrefixOf_iff'.mp hB.1) hB.2) (out he)
        rw [if_neg hB] at he
        obtain ⟨⟨s, q1⟩, h1, he⟩ := bind_ok_inv he
        dsimp only at he
        have hnp : ¬ (h.path <+: d.path ∧ h.mode = modeTree) := fun hh => hA ⟨isPrefixOf_iff'.mpr hh.1, hh.2⟩
        have hdrop := wdOnly_dropped hi.sorted hlt hnp h1
        have hk := keep_wdOnly (tc := False) hi.sorted hlt hnp h1
        refine (ih s _ a st' q' (again s hk.sub hdrop) ?_ he).mono (fun x hx => hk.sub.subset hx) hdrop
        have hl : s.length ≤ r.length := by
          rcases wdOnly_left h1 with rfl | ⟨rfl, _⟩
          · exact advance_length h r
          · exact advanceInto_length h r
        simp only [List.length_cons] at hf
        omega
      rw [if_neg hc] at he
      by_cases h0 : bcmp h.path d.path = 0
      · rw [if_pos h0] at he
        exact .withWd h (by simp) (bcmp_zero.mp h0) (out he)
      rw [if_neg h0] at he
      have hgt : d.path < h.path := lt_of_le_of_ne (not_lt.mp fun hh => hc (bcmp_lt.mpr hh)) fun hh => h0 (bcmp_zero.mpr hh.symm)
      by_cases hP : d.path.isPrefixOf h.path = true
      · rw [if_pos hP] at he
        by_cases h1 : PathValid.peek h.path d.path.length ≠ c!"/"
        · rw [if_pos h1] at he; exact .noWd (out he) fun w hw => tail w hw hgt
        rw [if_neg h1] at he
        have hb : Below h.path d.path := peek_slash (isPrefixOf_iff'.mp hP) (by simpa using h1)
        have hp := head_dir hi hb
        by_cases h2 : d.status = .typechange ∧ d.old.mode = modeTree
        · rw [if_pos h2] at he
          exact .typechange h (by simp) hp h2.1 (out he)
        rw [if_neg h2] at he
        by_cases h3 : d.status = .typechange ∧ (d.new.mode = modeTree ∨ d.new.mode = modeCommit ∨ d.old.mode = modeCommit)
        · rw [if_pos h3] at he
          exact .typechange h (by simp) hp h3.1 (out he)
        rw [if_neg h3] at he
        by_cases h4 : h.emptyDir = true
        · rw [if_pos h4] at he; exact .emptyDir h (by simp) hp h4 (out he)
        · rw [if_neg h4] at he; exact .dir h (by simp) hp (by simpa using h4) (out he)
      · rw [if_neg hP] at he; exact .noWd (out he) fun w hw => tail w hw hgt

/-! ### all deltas -/

/-- Every delta's action comes from a rule applied to the items left at that point, which contain every item of the work directory whose
path no delta up to there has reached: those at or after the delta's path and not below an earlier delta's path. -/
theorem loop_rules {data : Data} (hsafe : Safe data) {ds : List Delta} :
    ∀ {st : List Wd} {q : List Bytes} {as : List Action} {st' : List Wd} {q' : List Bytes}, DeltasOK ds → Inv ds st →
      actionsLoop data ds st q = .ok (as, st', q') →
      as.length = ds.length ∧ q' = q ∧ ∀ d a, (d, a) ∈ ds.zip as → verifyPaths data a d = true ∧
        ∃ s, Rule data d s a ∧ s.Sublist st ∧ ∀ x ∈ st, x ∉ s → ∃ e ∈ ds, e.path < d.path ∧ (x.path < e.path ∨ x.path = e.path ∨ (e.status = .typechange ∧ Below x.path e.path)) := by
  induction ds with
  | nil =>
    intro st q as st' q' _ _ he
    injection he with he
    injection he with h1 he
    injection he with h2 h3
    subst h1 h2 h3
    exact ⟨rfl, rfl, by simp⟩
  | cons d ds ih =>
    intro st q as st' q' hd hi he
    unfold actionsLoop at he
    obtain ⟨⟨a, s1, q1⟩, h1, he⟩ := bind_ok_inv he
    dsimp only at he
    by_cases hv : (!(verifyPaths data a d)) = true
    · rw [if_pos hv] at he; cases he
    rw [if_neg hv] at he
    obtain ⟨⟨as2, s2, q2⟩, h2, he⟩ := bind_ok_inv he
    injection he with he
    injection he with h3 he
    injection he with h4 h5
    subst h3 h4 h5
    obtain ⟨hk, hq⟩ := action_keep hsafe hd _ _ _ _ _ _ hi h1
    have hr := action_rule hd _ _ _ _ _ _ hi (Nat.lt_succ_self _) h1
    have hd2 : DeltasOK ds := ⟨(List.pairwise_cons.mp hd.sorted).2, fun e he => hd.noSlash e (List.mem_cons_of_mem _ he)⟩
    obtain ⟨hl, hq2, hz⟩ := ih hd2 (hi.step hd hk) h2
    refine ⟨by simp [hl], by rw [hq2, hq], ?_⟩
    intro e b hm
    rw [List.zip_cons_cons] at hm
    rcases List.mem_cons.mp hm with hm | hm
    · injection hm with g1 g2
      subst g1 g2
      exact ⟨by simpa using hv, st, hr, List.Sublist.refl _, fun x hx hn => absurd hx hn⟩
    · obtain ⟨g1, s, g2, g3, g4⟩ := hz e b hm
      refine ⟨g1, s, g2, g3.trans hk.sub, fun x hx hn => ?_⟩
      by_cases hin : x ∈ s1
      · obtain ⟨f, f1, f2⟩ := g4 x hin hn
        exact ⟨f, List.mem_cons_of_mem _ f1, f2⟩
      · exact ⟨d, by simp, (List.pairwise_cons.mp hd.sorted).1 e (List.of_mem_zip hm).1, hk.dropped x hx hin⟩

theorem remaining_safe {data : Data} (hsafe : Safe data) (fuel : Nat) : ∀ (st : List Wd) (q q' : List Bytes),
    remaining data fuel st q = .ok q' → q' = q := by
  induction fuel with
  | zero => intro st q q' h; injection h with h; exact h.symm
  | succ fuel ih =>
    intro st q q' h
    cases st with
    | nil => injection h with h; exact h.symm
    | cons x st =>
      unfold remaining at h
      obtain ⟨⟨s, q1⟩, h1, h⟩ := bind_ok_inv h
      rw [wdOnly_safe hsafe h1, List.append_nil] at h
      exact ih _ _ _ h

theorem WorkdirOK.inv {wds : List Wd} (h : WorkdirOK wds) (ds : List Delta) : Inv ds wds :=
  ⟨h.sorted, h.tree, fun d _ x hx hb => h.parents x hx d.path hb⟩

end Verif.Checkout
