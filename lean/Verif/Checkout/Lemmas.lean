import Verif.Checkout.Spec
/-! # Lemmas: the walk along the work directory -/
namespace Verif.Checkout
open Spec B

theorem lt_trans' {a b c : Bytes} (h1 : a < b) (h2 : b < c) : a < c := lt_of_lt_of_le h1 (le_of_lt h2)
theorem lt_irrefl' {a : Bytes} (h : a < a) : False := ne_of_lt h rfl

theorem prefix_le {a b : Bytes} (h : a <+: b) : a ≤ b := by
  obtain ⟨t, rfl⟩ := h
  refine bcmp_le.mp ?_
  have := bcmp_append_left a [] t
  rw [List.append_nil] at this
  rw [this]
  cases t <;> simp [bcmp]

theorem convex {a b t : Bytes} (h1 : a ≤ b) (h2 : b ≤ a ++ t) : a <+: b := by
  induction a generalizing b with
  | nil => exact List.nil_prefix
  | cons x a ih =>
    have h1 := bcmp_le.mpr h1
    have h2 := bcmp_le.mpr h2
    cases b with
    | nil => simp [bcmp] at h1
    | cons y b =>
      simp only [List.cons_append, bcmp] at h1 h2
      have hxy : ¬ y < x := by
        intro h
        rw [if_neg (by rw [UInt8.lt_iff_toNat_lt] at *; omega), if_pos h] at h1
        omega
      have hyx : ¬ x < y := by
        intro h
        rw [if_neg (by rw [UInt8.lt_iff_toNat_lt] at *; omega), if_pos h] at h2
        omega
      have : x = y := by
        rw [UInt8.lt_iff_toNat_lt] at hxy hyx
        exact UInt8.toNat_inj.mp (by omega)
      subst this
      rw [if_neg hxy, if_neg hxy] at h1 h2
      exact List.cons_prefix_cons.mpr ⟨rfl, ih (bcmp_le.mp h1) (bcmp_le.mp h2)⟩

theorem convex' {a b p : Bytes} (h1 : a ≤ b) (h2 : b ≤ p) (h3 : a <+: p) : a <+: b := by
  obtain ⟨t, rfl⟩ := h3
  exact convex h1 h2

theorem lt_slash (a : Bytes) (x : UInt8) : a < a ++ [x] :=
  lt_of_le_of_ne (prefix_le (List.prefix_append _ _)) (by simp)

theorem isPrefixOf_iff' {a b : Bytes} : a.isPrefixOf b = true ↔ a <+: b := by simp

/-- the items that stay when the subtree of a directory is skipped -/
theorem mem_skip {h : Bytes} {r : List Wd} (hs : r.Pairwise (fun a b => a.path < b.path)) (hh : ∀ x ∈ r, h < x.path) (x : Wd) :
    x ∈ r.dropWhile (fun x => h.isPrefixOf x.path) ↔ x ∈ r ∧ ¬ h <+: x.path := by
  induction r with
  | nil => simp
  | cons y r ih =>
    rw [List.pairwise_cons] at hs
    rw [List.dropWhile_cons]
    by_cases hy : h <+: y.path
    · rw [if_pos (isPrefixOf_iff'.mpr hy), ih hs.2 (fun x hx => hh x (List.mem_cons_of_mem _ hx))]
      constructor
      · rintro ⟨a, b⟩; exact ⟨List.mem_cons_of_mem _ a, b⟩
      · rintro ⟨a, b⟩
        rcases List.mem_cons.mp a with rfl | a
        · exact absurd hy b
        · exact ⟨a, b⟩
    · rw [if_neg (fun h' => hy (isPrefixOf_iff'.mp h'))]
      constructor
      · intro hx
        refine ⟨hx, ?_⟩
        rcases List.mem_cons.mp hx with rfl | hx
        · exact hy
        · intro hp
          exact hy (convex' (le_of_lt (hh y (by simp))) (le_of_lt (hs.1 x hx)) hp)
      · exact fun h => h.1

theorem skip_sublist (h : Bytes) (r : List Wd) : (r.dropWhile (fun x => h.isPrefixOf x.path)).Sublist r := List.dropWhile_sublist _

/-- what a step for the delta at `d` may drop; `tc`: the delta is a change of type -/
structure Keep (d : Bytes) (tc : Prop) (st st' : List Wd) : Prop where
  sub : st'.Sublist st
  dropped : ∀ x ∈ st, x ∉ st' → x.path < d ∨ x.path = d ∨ (tc ∧ Below x.path d)
  whole : ∀ t ∈ st, t ∉ st' → t.mode = modeTree → d < t.path → t.path ≠ d ++ [c!"/"] → ∀ x ∈ st', ¬ t.path <+: x.path

theorem Keep.refl (d : Bytes) (tc : Prop) (st : List Wd) : Keep d tc st st :=
  ⟨List.Sublist.refl _, fun x hx hn => absurd hx hn, fun t ht hn => absurd ht hn⟩

theorem Keep.trans {d : Bytes} {tc : Prop} {a b c : List Wd} (h1 : Keep d tc a b) (h2 : Keep d tc b c) : Keep d tc a c := by
  refine ⟨h2.sub.trans h1.sub, fun x hx hn => ?_, fun t ht hn hm hd hne x hx => ?_⟩
  · by_cases h : x ∈ b
    · exact h2.dropped x h hn
    · exact h1.dropped x hx h
  · by_cases h : t ∈ b
    · exact h2.whole t h hn hm hd hne x hx
    · exact h1.whole t ht h hm hd hne x (h2.sub.subset hx)

theorem mem_of_cons_not {h x : Wd} {r : List Wd} (hx : x ∈ h :: r) (hn : x ∉ r) : x = h := by
  rcases List.mem_cons.mp hx with rfl | hx
  · rfl
  · exact absurd hx hn

theorem keep_head {d : Bytes} {tc : Prop} {h : Wd} {r : List Wd}
    (hh : h.path < d ∨ h.path = d ∨ (tc ∧ h.path = d ++ [c!"/"]) ∨ (tc ∧ h.mode ≠ modeTree ∧ Below h.path d)) : Keep d tc (h :: r) r := by
  refine ⟨List.sublist_cons_self _ _, fun x hx hn => ?_, fun t ht hn hm hd hne => ?_⟩
  · rw [mem_of_cons_not hx hn]
    rcases hh with h1 | h1 | h1 | h1
    · exact .inl h1
    · exact .inr (.inl h1)
    · exact .inr (.inr ⟨h1.1, by rw [h1.2]; exact List.prefix_refl _⟩)
    · exact .inr (.inr ⟨h1.1, h1.2.2⟩)
  · have := mem_of_cons_not ht hn
    subst this
    exfalso
    rcases hh with h1 | h1 | h1 | h1
    · exact lt_irrefl' (lt_trans' h1 hd)
    · rw [h1] at hd; exact lt_irrefl' hd
    · exact hne h1.2
    · exact h1.2.1 hm

/-- the items are in order -/
def Sorted (st : List Wd) : Prop := st.Pairwise (fun a b => a.path < b.path)

theorem keep_skip {d : Bytes} {tc : Prop} {h : Wd} {r : List Wd} (hs : Sorted (h :: r)) (hh : (h.path < d ∧ ¬ h.path <+: d) ∨ (tc ∧ Below h.path d)) :
    Keep d tc (h :: r) (r.dropWhile (fun x => h.path.isPrefixOf x.path)) := by
  unfold Sorted at hs
  rw [List.pairwise_cons] at hs
  have hm := fun x => mem_skip (h := h.path) hs.2 hs.1 x
  have below : ∀ x ∈ h :: r, x ∉ r.dropWhile (fun x => h.path.isPrefixOf x.path) → h.path <+: x.path := by
    intro x hx hn
    rcases List.mem_cons.mp hx with rfl | hx
    · exact List.prefix_refl _
    · exact Decidable.byContradiction fun hp => hn ((hm x).mpr ⟨hx, hp⟩)
  refine ⟨(skip_sublist _ _).trans (List.sublist_cons_self _ _), fun x hx hn => ?_, fun t ht hn hmode hd hne x hx hp => ?_⟩
  · have hb := below x hx hn
    rcases hh with ⟨h1, h2⟩ | h1
    · left
      refine Decidable.byContradiction fun hlt => h2 (convex' (le_of_lt h1) (not_lt.mp hlt) hb)
    · exact .inr (.inr ⟨h1.1, h1.2.trans hb⟩)
  · have hb := below t ht hn
    exact ((hm x).mp hx).2 (hb.trans hp)

/-! ### one delta -/

/-- the walk's invariant: the items are in order and directories are recognised; the directory at a delta's path is still there if anything
below it is -/
structure Inv (ds : List Delta) (st : List Wd) : Prop where
  sorted : Sorted st
  tree : ∀ w ∈ st, w.mode = modeTree ↔ w.path.getLast? = some c!"/"
  parents : ∀ d ∈ ds, ∀ h ∈ st, Below h.path d.path → ∃ t ∈ st, t.path = d.path ++ [c!"/"]

theorem Inv.step {d : Delta} {ds : List Delta} {st st' : List Wd} (hi : Inv (d :: ds) st) (hd : DeltasOK (d :: ds)) (hk : Keep d.path (d.status = .typechange) st st') :
    Inv ds st' := by
  refine ⟨hi.sorted.sublist hk.sub, fun w hw => hi.tree w (hk.sub.subset hw), fun e he h hh hb => ?_⟩
  have hlt : d.path < e.path := (List.pairwise_cons.mp hd.sorted).1 e he
  obtain ⟨t, ht, hp⟩ := hi.parents e (List.mem_cons_of_mem _ he) h (hk.sub.subset hh) hb
  by_cases hin : t ∈ st'
  · exact ⟨t, hin, hp⟩
  · exfalso
    refine hk.whole t ht hin ((hi.tree t ht).mpr (by rw [hp]; simp)) ?_ ?_ h hh (by rw [hp]; exact hb)
    · rw [hp]; exact lt_trans' hlt (lt_slash _ _)
    · rw [hp]
      intro he2
      have : e.path = d.path := by simpa using he2
      rw [this] at hlt
      exact lt_irrefl' hlt

theorem bind_ok_inv {α β : Type} {r : Res α} {f : α → Res β} {b : β} (h : (r >>= f) = .ok b) : ∃ a, r = .ok a ∧ f a = .ok b := by
  cases r with
  | ok a => exact ⟨a, rfl, h⟩
  | err e => cases h
  | ub => cases h

theorem head_le {h w : Wd} {r : List Wd} (hs : Sorted (h :: r)) (hw : w ∈ h :: r) : h.path ≤ w.path := by
  rcases List.mem_cons.mp hw with rfl | hw
  · exact le_rfl
  · exact le_of_lt ((List.pairwise_cons.mp hs).1 w hw)

theorem head_eq {h w : Wd} {r : List Wd} (hs : Sorted (h :: r)) (hw : w ∈ h :: r) (hp : h.path = w.path) : h = w := by
  rcases List.mem_cons.mp hw with rfl | hw
  · rfl
  · have := (List.pairwise_cons.mp hs).1 w hw
    rw [hp] at this
    exact (lt_irrefl' this).elim

theorem peek_slash {a b : Bytes} (h : a <+: b) (hp : PathValid.peek b a.length = c!"/") : Below b a := by
  obtain ⟨t, rfl⟩ := h
  cases t with
  | nil => simp [PathValid.peek] at hp
  | cons x t =>
    have : x = c!"/" := by simpa [PathValid.peek, List.getD_eq_getElem?_getD] using hp
    subst this
    exact ⟨t, by simp⟩

theorem advance_cons (w : Wd) (r : List Wd) :
    advance (w :: r) = if w.mode = modeTree then r.dropWhile (fun x => w.path.isPrefixOf x.path) else r := rfl

theorem advanceInto_cons (w : Wd) (r : List Wd) : advanceInto (w :: r) = if w.mode = modeTree then r else [] := rfl

theorem actionWdOnly_cons (data : Data) (wd : Wd) (rest : List Wd) : actionWdOnly data (wd :: rest) =
    if !wd.matched then .ok (if wd.mode = modeTree then advanceInto (wd :: rest) else advance (wd :: rest), [])
    else if wd.tracked ∧ wd.mode = modeTree then .ok (advanceInto (wd :: rest), [])
    else if wd.tracked then
      checkoutNotify data .dirty none (some wd) >>= fun _ =>
      .ok (advance (wd :: rest), if data.strategy.force ∧ removable wd then [wd.path] else [])
    else
      checkoutNotify data (if (if wd.mode = modeTree then decide (wd.over = .ignored) else wd.ignored) then .ignored else .untracked) none (some wd) >>= fun _ =>
      .ok (advance (wd :: rest),
        if (if (if wd.mode = modeTree then decide (wd.over = .ignored) else wd.ignored) then data.strategy.removeIgnored else data.strategy.removeUntracked) ∧ removable wd then [wd.path] else []) := rfl

theorem checkoutAction_nil (data : Data) (delta : Delta) (fuel : Nat) (q : List Bytes) :
    checkoutAction data delta (fuel + 1) [] q = (actionNoWd data delta >>= fun a => .ok (a, [], q)) := rfl

theorem checkoutAction_cons (data : Data) (delta : Delta) (fuel : Nat) (wd : Wd) (rest : List Wd) (q : List Bytes) :
    checkoutAction data delta (fuel + 1) (wd :: rest) q =
    if bcmp wd.path delta.path < 0 then
      if wd.path.isPrefixOf delta.path ∧ wd.mode = modeTree then checkoutAction data delta fuel (advanceInto (wd :: rest)) q
      else if wd.path.isPrefixOf delta.path ∧ PathValid.peek delta.path wd.path.length = c!"/" then
        actionBlocker data delta wd >>= fun a => .ok (a, advance (wd :: rest), q)
      else actionWdOnly data (wd :: rest) >>= fun r => checkoutAction data delta fuel r.1 (q ++ r.2)
    else if bcmp wd.path delta.path = 0 then actionWithWd data delta wd >>= fun a => .ok (a, advance (wd :: rest), q)
    else if delta.path.isPrefixOf wd.path then
      if PathValid.peek wd.path delta.path.length ≠ c!"/" then actionNoWd data delta >>= fun a => .ok (a, wd :: rest, q)
      else if delta.status = .typechange ∧ delta.old.mode = modeTree then
        actionWithWd data delta wd >>= fun a => .ok (a, advanceInto (wd :: rest), q)
      else if delta.status = .typechange ∧ (delta.new.mode = modeTree ∨ delta.new.mode = modeCommit ∨ delta.old.mode = modeCommit) then
        actionWithWd data delta wd >>= fun a => .ok (a, advance (wd :: rest), q)
      else if wd.emptyDir then actionDirEmpty data delta >>= fun a => .ok (a, wd :: rest, q)
      else actionDir data delta wd >>= fun a => .ok (a, wd :: rest, q)
    else actionNoWd data delta >>= fun a => .ok (a, wd :: rest, q) := rfl

/-- The items left after an item of the work directory alone. -/
theorem wdOnly_left {data : Data} {h : Wd} {r s : List Wd} {q : List Bytes} (h1 : actionWdOnly data (h :: r) = .ok (s, q)) :
    s = advance (h :: r) ∨ (s = advanceInto (h :: r) ∧ h.mode = modeTree) := by
  rw [actionWdOnly_cons] at h1
  by_cases g1 : (!h.matched) = true
  · rw [if_pos g1] at h1
    injection h1 with h1
    injection h1 with h1 _
    by_cases hm : h.mode = modeTree
    · rw [if_pos hm] at h1; exact .inr ⟨h1.symm, hm⟩
    · rw [if_neg hm] at h1; exact .inl h1.symm
  rw [if_neg g1] at h1
  by_cases g2 : h.tracked = true ∧ h.mode = modeTree
  · rw [if_pos g2] at h1
    injection h1 with h1
    injection h1 with h1 _
    exact .inr ⟨h1.symm, g2.2⟩
  rw [if_neg g2] at h1
  by_cases g3 : h.tracked = true
  · rw [if_pos g3] at h1
    obtain ⟨_, _, h1⟩ := bind_ok_inv h1
    injection h1 with h1
    injection h1 with h1 _
    exact .inl h1.symm
  · rw [if_neg g3] at h1
    obtain ⟨_, _, h1⟩ := bind_ok_inv h1
    injection h1 with h1
    injection h1 with h1 _
    exact .inl h1.symm

theorem keep_wdOnly {data : Data} {d : Bytes} {tc : Prop} {h : Wd} {r st' : List Wd} {q : List Bytes} (hs : Sorted (h :: r)) (hlt : h.path < d)
    (hnp : ¬ (h.path <+: d ∧ h.mode = modeTree)) (he : actionWdOnly data (h :: r) = .ok (st', q)) : Keep d tc (h :: r) st' := by
  have adv : Keep d tc (h :: r) (advance (h :: r)) := by
    rw [advance_cons]
    by_cases hm : h.mode = modeTree
    · rw [if_pos hm]
      exact keep_skip hs (.inl ⟨hlt, fun hp => hnp ⟨hp, hm⟩⟩)
    · rw [if_neg hm]
      exact keep_head (.inl hlt)
  have into : h.mode = modeTree → Keep d tc (h :: r) (advanceInto (h :: r)) := by
    intro hm
    rw [advanceInto_cons]
    rw [if_pos hm]
    exact keep_head (.inl hlt)
  rcases wdOnly_left he with rfl | ⟨rfl, hm⟩
  · exact adv
  · exact into hm

theorem wdOnly_safe {data : Data} (hd : Safe data) {st st' : List Wd} {q : List Bytes} (he : actionWdOnly data st = .ok (st', q)) : q = [] := by
  cases st with
  | nil => injection he with he; injection he with _ he; exact he.symm
  | cons h r =>
    rw [actionWdOnly_cons] at he
    by_cases h1 : (!h.matched) = true
    · rw [if_pos h1] at he
      injection he with he
      injection he with _ he
      exact he.symm
    rw [if_neg h1] at he
    by_cases h2 : h.tracked = true ∧ h.mode = modeTree
    · rw [if_pos h2] at he
      injection he with he
      injection he with _ he
      exact he.symm
    rw [if_neg h2] at he
    by_cases h3 : h.tracked = true
    · rw [if_pos h3] at he
      obtain ⟨_, _, he⟩ := bind_ok_inv he
      injection he with he
      injection he with _ he
      rw [hd.force] at he
      simpa using he.symm
    · rw [if_neg h3] at he
      obtain ⟨_, _, he⟩ := bind_ok_inv he
      injection he with he
      injection he with _ he
      rw [hd.untracked, hd.ignored] at he
      simpa using he.symm

/-- What a step on an item before the delta's path leaves out is before that path. -/
theorem wdOnly_dropped {data : Data} {d : Bytes} {h : Wd} {r s : List Wd} {q : List Bytes} (hs : Sorted (h :: r)) (hlt : h.path < d)
    (hnp : ¬ (h.path <+: d ∧ h.mode = modeTree)) (h1 : actionWdOnly data (h :: r) = .ok (s, q)) : ∀ x ∈ h :: r, x ∉ s → x.path < d := by
  intro x hx hn
  have hs' := List.pairwise_cons.mp hs
  have hb : x = h ∨ (h.mode = modeTree ∧ h.path <+: x.path) := by
    rcases wdOnly_left h1 with rfl | ⟨rfl, hm⟩
    · rw [advance_cons] at hn
      by_cases hm : h.mode = modeTree
      · rw [if_pos hm] at hn
        rcases List.mem_cons.mp hx with rfl | hx
        · exact .inl rfl
        · exact .inr ⟨hm, Decidable.byContradiction fun hp => hn ((mem_skip hs'.2 hs'.1 x).mpr ⟨hx, hp⟩)⟩
      · rw [if_neg hm] at hn
        exact .inl (mem_of_cons_not hx hn)
    · rw [advanceInto_cons, if_pos hm] at hn
      exact .inl (mem_of_cons_not hx hn)
  rcases hb with rfl | ⟨hm, hb⟩
  · exact hlt
  · refine Decidable.byContradiction fun hge => hnp ⟨convex' (le_of_lt hlt) (not_lt.mp hge) hb, hm⟩

/-- The work of one delta: what it drops, and nothing is queued for removal. -/
theorem action_keep {data : Data} (hsafe : Safe data) {d : Delta} {ds : List Delta} (hd : DeltasOK (d :: ds)) (fuel : Nat) :
    ∀ (st : List Wd) (q : List Bytes) (a : Action) (st' : List Wd) (q' : List Bytes), Inv (d :: ds) st →
      checkoutAction data d fuel st q = .ok (a, st', q') → Keep d.path (d.status = .typechange) st st' ∧ q' = q := by
  induction fuel with
  | zero =>
    intro st q a st' q' _ he
    injection he with he
    injection he with _ he
    injection he with he1 he2
    subst he1 he2
    exact ⟨Keep.refl _ _ _, rfl⟩
  | succ fuel ih =>
    intro st q a st' q' hi he
    cases st with
    | nil =>
      rw [checkoutAction_nil] at he
      obtain ⟨_, _, he⟩ := bind_ok_inv he
      injection he with he
      injection he with _ he
      injection he with he1 he2
      subst he1 he2
      exact ⟨Keep.refl _ _ _, rfl⟩
    | cons h r =>
      have stay : ∀ {x : Res Action}, (x >>= fun a => (.ok (a, h :: r, q) : Res (Action × List Wd × List Bytes))) = .ok (a, st', q') →
          Keep d.path (d.status = .typechange) (h :: r) st' ∧ q' = q := by
        intro x hx
        obtain ⟨_, _, hx⟩ := bind_ok_inv hx
        injection hx with hx
        injection hx with _ hx
        injection hx with h1 h2
        subst h1 h2
        exact ⟨Keep.refl _ _ _, rfl⟩
      have move : ∀ {x : Res Action} {s : List Wd}, Keep d.path (d.status = .typechange) (h :: r) s →
          (x >>= fun a => (.ok (a, s, q) : Res (Action × List Wd × List Bytes))) = .ok (a, st', q') → Keep d.path (d.status = .typechange) (h :: r) st' ∧ q' = q := by
        intro x s hk hx
        obtain ⟨_, _, hx⟩ := bind_ok_inv hx
        injection hx with hx
        injection hx with _ hx
        injection hx with h1 h2
        subst h1 h2
        exact ⟨hk, rfl⟩
      -- the invariant for the same deltas after dropping something that is before the delta
      have again : ∀ s, Keep d.path (d.status = .typechange) (h :: r) s → (∀ x ∈ h :: r, x ∉ s → x.path < d.path) → Inv (d :: ds) s := by
        intro s hk hlt
        refine ⟨hi.sorted.sublist hk.sub, fun w hw => hi.tree w (hk.sub.subset hw), fun e he x hx hb => ?_⟩
        obtain ⟨t, ht, hp⟩ := hi.parents e he x (hk.sub.subset hx) hb
        refine ⟨t, ?_, hp⟩
        by_cases hin : t ∈ s
        · exact hin
        · exfalso
          have h1 := hlt t ht hin
          rw [hp] at h1
          have h2 : d.path ≤ e.path := by
            rcases List.mem_cons.mp he with rfl | he
            · exact le_rfl
            · exact le_of_lt ((List.pairwise_cons.mp hd.sorted).1 e he)
          exact lt_irrefl' (lt_trans' (lt_of_lt_of_le h1 h2) (lt_slash _ _))
      rw [checkoutAction_cons] at he
      by_cases hc : bcmp h.path d.path < 0
      · rw [if_pos hc] at he
        have hlt := bcmp_lt.mp hc
        by_cases hA : h.path.isPrefixOf d.path = true ∧ h.mode = modeTree
        · rw [if_pos hA] at he
          rw [advanceInto_cons] at he
          rw [if_pos hA.2] at he
          have hk : Keep d.path (d.status = .typechange) (h :: r) r := keep_head (.inl hlt)
          obtain ⟨k, hq⟩ := ih r q a st' q' (again r hk (fun x hx hn => by rw [mem_of_cons_not hx hn]; exact hlt)) he
          exact ⟨hk.trans k, hq⟩
        rw [if_neg hA] at he
        by_cases hB : h.path.isPrefixOf d.path = true ∧ PathValid.peek d.path h.path.length = c!"/"
        · rw [if_pos hB] at he
          refine move ?_ he
          rw [advance_cons]
          rw [if_neg (fun hm => hA ⟨hB.1, hm⟩)]
          exact keep_head (.inl hlt)
        rw [if_neg hB] at he
        obtain ⟨⟨s, q1⟩, h1, he⟩ := bind_ok_inv he
        dsimp only at he
        have hq1 := wdOnly_safe hsafe h1
        subst hq1
        rw [List.append_nil] at he
        have hnp : ¬ (h.path <+: d.path ∧ h.mode = modeTree) := fun hh => hA ⟨isPrefixOf_iff'.mpr hh.1, hh.2⟩
        have hk := keep_wdOnly (tc := d.status = .typechange) hi.sorted hlt hnp h1
        have hdrop := wdOnly_dropped hi.sorted hlt hnp h1
        obtain ⟨k, hq⟩ := ih s q a st' q' (again s hk hdrop) he
        exact ⟨hk.trans k, hq⟩
      rw [if_neg hc] at he
      by_cases h0 : bcmp h.path d.path = 0
      · rw [if_pos h0] at he
        have heq := bcmp_zero.mp h0
        refine move ?_ he
        rw [advance_cons]
        rw [if_neg (fun hm => hd.noSlash d (by simp) (by rw [← heq]; exact (hi.tree h (by simp)).mp hm))]
        exact keep_head (.inr (.inl heq))
      rw [if_neg h0] at he
      by_cases hP : d.path.isPrefixOf h.path = true
      · rw [if_pos hP] at he
        by_cases h1 : PathValid.peek h.path d.path.length ≠ c!"/"
        · rw [if_pos h1] at he; exact stay he
        rw [if_neg h1] at he
        have hb : Below h.path d.path := peek_slash (isPrefixOf_iff'.mp hP) (by simpa using h1)
        by_cases h2 : d.status = .typechange ∧ d.old.mode = modeTree
        · rw [if_pos h2] at he
          refine move ?_ he
          obtain ⟨t, ht, hp⟩ := hi.parents d (by simp) h (by simp) hb
          have : h = t := by
            refine head_eq hi.sorted ht (le_antisymm (head_le hi.sorted ht) ?_)
            rw [hp]
            exact prefix_le hb
          subst this
          rw [advanceInto_cons]
          rw [if_pos ((hi.tree h (by simp)).mpr (by rw [hp]; simp))]
          exact keep_head (.inr (.inr (.inl ⟨h2.1, hp⟩)))
        rw [if_neg h2] at he
        by_cases h3 : d.status = .typechange ∧ (d.new.mode = modeTree ∨ d.new.mode = modeCommit ∨ d.old.mode = modeCommit)
        · rw [if_pos h3] at he
          refine move ?_ he
          rw [advance_cons]
          by_cases hm : h.mode = modeTree
          · rw [if_pos hm]; exact keep_skip hi.sorted (.inr ⟨h3.1, hb⟩)
          · rw [if_neg hm]; exact keep_head (.inr (.inr (.inr ⟨h3.1, hm, hb⟩)))
        rw [if_neg h3] at he
        by_cases h4 : h.emptyDir = true
        · rw [if_pos h4] at he; exact stay he
        · rw [if_neg h4] at he; exact stay he
      · rw [if_neg hP] at he; exact stay he

end Verif.Checkout
