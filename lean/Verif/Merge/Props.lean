import Verif.Merge.Lemmas4
/-! # C31: the three-way merge of trees -/
namespace Verif.Merge
open Verif.Index Spec Verif.Index.Spec

/-- what the resulting index holds at a path and stage -/
def stageItem (st : St) (p : Bytes) (s : Nat) : Option Item := (getBypath st p s).map (fun e => (e.mode, e.id))

/-- a driver that does its job: it answers for the path it was given (not with a directory) or fails with an error code -/
def GoodDriver (drv : Driver) : Prop :=
  (∀ x y z, drv x y z ≠ .ub) ∧
  ∀ x y z e, drv x y z = .ok e → e.path = y.path ∧ e.stage = 0 ∧ ¬ (e.mode &&& 0o170000 = 0o040000)

/-- **C31 (walk).** Walking any number of trees together visits every path of any of them exactly once, in increasing order, and hands out
for every tree its entry at that path, or nothing where the tree has none. -/
theorem C31_walk (iters : List (List Entry)) (hs : ∀ l ∈ iters, l.Pairwise (fun a b => a.path < b.path) ∧ ∀ e ∈ l, e.stage = 0) :
    ∃ ps : List Bytes, ps.Pairwise (fun a b => a < b) ∧ (∀ p, p ∈ ps ↔ ∃ l ∈ iters, ∃ e ∈ l, e.path = p) ∧
      walk iters = ps.map (fun p => iters.map (fun l => entryAt l p)) := walk_ok iters hs

theorem createMode_canon {m : Nat} (h : ¬ (m &&& 0o170000 = 0o040000)) : createMode m = canonMode m := by
  unfold createMode canonMode
  by_cases h1 : m &&& 0o170000 = 0o120000
  · rw [if_pos h1, if_pos (show Link m from h1)]
  · rw [if_neg h1, if_neg (show ¬ Link m from h1)]
    by_cases h2 : m &&& 0o170000 = 0o160000
    · rw [if_pos (.inr h2), if_pos (show Submodule m from h2)]
    · rw [if_neg (by rintro (h' | h') <;> contradiction), if_neg (show ¬ Submodule m from h2)]
      split <;> decide

theorem createMode_stored {m : Nat} (h : StoredMode m) : createMode m = m := by
  rcases h with rfl | rfl | rfl | rfl <;> decide

open Classical in
/-- the difference at a path with its mark -/
noncomputable def marked (a o t : List Entry) (p : Bytes) : Diff :=
  { diffAt a o t p with kind := if DirFile a o t p then .directoryFile else .none }

section
variable {drv : Driver} {a o t : List Entry} (ha : IsTree a) (ho : IsTree o) (ht : IsTree t)
include ha ho ht

theorem marked_cases {p : Bytes} (hch : Changed a o t p) :
    (DirFile a o t p ∧ resolve drv (marked a o t p) = .ok .unresolved) ∨
    (¬ DirFile a o t p ∧
      ((∃ e : Option Entry, rule (itemAt a p) (itemAt o p) (itemAt t p) = .take (e.map toItem) ∧ resolve drv (marked a o t p) = .ok (.resolved e) ∧
          (e = entryAt o p ∨ e = entryAt t p)) ∨
       (rule (itemAt a p) (itemAt o p) (itemAt t p) = .conflict ∧ resolve drv (marked a o t p) = .ok .unresolved) ∨
       (rule (itemAt a p) (itemAt o p) (itemAt t p) = .contents ∧ ∃ eo et, entryAt o p = some eo ∧ entryAt t p = some et ∧
          resolve drv (marked a o t p) = (match drv (entryAt a p) eo et with
            | .ok e => .ok (.resolved (some e))
            | .err x => if x = EMERGECONFLICT then .ok .unresolved else .err x
            | .ub => .ub)))) := by
  by_cases hd : DirFile a o t p
  · left
    refine ⟨hd, resolve_df drv _ ?_⟩
    simp [marked, hd]
  · right
    refine ⟨hd, ?_⟩
    have hm : marked a o t p = { fromEntries (entryAt a p) (entryAt o p) (entryAt t p) with kind := .none } := by
      simp [marked, hd, diffAt]
    rw [hm]
    obtain ⟨h1, h2, h3⟩ := resolve_rule drv (okay_at ha p) (okay_at ho p) (okay_at ht p) .none (by simp) hch
    rw [itemAt_eq, itemAt_eq, itemAt_eq]
    cases hr : rule ((entryAt a p).map toItem) ((entryAt o p).map toItem) ((entryAt t p).map toItem) with
    | take x =>
      left
      obtain ⟨e, g1, g2, g3⟩ := h1 x hr
      exact ⟨e, by rw [g2], g1, g3⟩
    | conflict => exact .inr (.inl ⟨rfl, h2 hr⟩)
    | contents => exact .inr (.inr ⟨rfl, h3 hr⟩)

theorem resolved_path (hd : GoodDriver drv) {p : Bytes} (hch : Changed a o t p) {e : Entry}
    (h : resolve drv (marked a o t p) = .ok (.resolved (some e))) : e.path = p ∧ e.stage = 0 ∧ ¬ (e.mode &&& 0o170000 = 0o040000) := by
  have hok : ∀ l, IsTree l → entryAt l p = some e → e.path = p ∧ e.stage = 0 ∧ ¬ (e.mode &&& 0o170000 = 0o040000) := by
    intro l hl he
    obtain ⟨h1, h2⟩ := entryAt_mem he
    have := hl.entry e h1
    exact ⟨h2, this.1, this.2.2.2⟩
  rcases marked_cases ha ho ht (drv := drv) hch with ⟨-, hr⟩ | ⟨-, ⟨e', -, hr, he⟩ | ⟨-, hr⟩ | ⟨-, eo, et, he1, he2, hr⟩⟩
  · rw [hr] at h; cases h
  · rw [hr] at h
    cases h
    rcases he with he | he
    · exact hok o ho he.symm
    · exact hok t ht he.symm
  · rw [hr] at h; cases h
  · rw [hr] at h
    cases hdr : drv (entryAt a p) eo et with
    | ok e' =>
      rw [hdr] at h
      cases h
      have := hd.2 _ _ _ _ hdr
      rw [(entryAt_mem he1).2] at this
      exact this
    | err x => rw [hdr] at h; simp only at h; split at h <;> cases h
    | ub => rw [hdr] at h; cases h

theorem unresolved_iff {p : Bytes} (hch : Changed a o t p) : resolve drv (marked a o t p) = .ok .unresolved ↔ Conflicted a o t drv p := by
  rcases marked_cases ha ho ht (drv := drv) hch with ⟨hd, hr⟩ | ⟨hd, ⟨e', hru, hr, he⟩ | ⟨hru, hr⟩ | ⟨hru, eo, et, he1, he2, hr⟩⟩
  · exact ⟨fun _ => .inl hd, fun _ => hr⟩
  · rw [hr]
    refine ⟨fun h => (by cases h), ?_⟩
    rintro (h | h | ⟨h, -⟩)
    · exact absurd h hd
    · rw [hru] at h; cases h
    · rw [hru] at h; cases h
  · exact ⟨fun _ => .inr (.inl hru), fun _ => hr⟩
  · rw [hr]
    constructor
    · intro h
      refine .inr (.inr ⟨hru, eo, et, he1, he2, ?_⟩)
      cases hdr : drv (entryAt a p) eo et with
      | ok e' => rw [hdr] at h; cases h
      | err x =>
        rw [hdr] at h
        simp only at h
        split at h
        · rename_i hx; rw [hx]; rfl
        · cases h
      | ub => rw [hdr] at h; cases h
    · rintro (h | h | ⟨-, eo', et', h1, h2, h3⟩)
      · exact absurd h hd
      · rw [hru] at h; cases h
      · rw [he1] at h1; rw [he2] at h2
        cases h1; cases h2
        rw [h3]; rfl

/-- **C31 (main).** Merging two trees with respect to an ancestor, without rename detection. Either an index is returned, and then for
every path:
* a path in conflict (a file against a directory, or two different changes that cannot be merged) has no stage 0 and at the stages 1, 2
  and 3 exactly what the ancestor, ours and theirs have there;
* any other path has no stages but 0, and there it has what both sides agree on, or the change of the side that changed it, or what the
  merge driver made of two changes — and nothing if the result is a removal.

Or an error is returned, and then the driver failed on a path whose contents had to be merged, or a conflict was found and the caller
asked to fail on conflicts, or a path in conflict has a path or mode that an index does not accept. -/
theorem C31_path (hd : GoodDriver drv) (pathValid : Bytes → Bool) (fail : Bool) :
    (∃ st, mergeTrees drv pathValid fail a o t = .ok st ∧ (fail = true → ∀ p, ¬ Conflicted a o t drv p) ∧
      ∀ p, (∀ s, 3 < s → stageItem st p s = none) ∧
        (Conflicted a o t drv p → stageItem st p 0 = none ∧ stageItem st p 1 = itemAt a p ∧ stageItem st p 2 = itemAt o p ∧ stageItem st p 3 = itemAt t p) ∧
        (¬ Conflicted a o t drv p → (∀ s, s ≠ 0 → stageItem st p s = none) ∧
          (∀ x, rule (itemAt a p) (itemAt o p) (itemAt t p) = .take x → stageItem st p 0 = x.map (fun i => (canonMode i.1, i.2))) ∧
          (rule (itemAt a p) (itemAt o p) (itemAt t p) = .contents → ∃ e, DriverSays a o t drv p (.ok e) ∧ stageItem st p 0 = some (canonMode e.mode, e.id)))) ∨
    (∃ c, mergeTrees drv pathValid fail a o t = .err c ∧
      ((c ≠ -24 ∧ ∃ p, ¬ DirFile a o t p ∧ rule (itemAt a p) (itemAt o p) (itemAt t p) = .contents ∧ DriverSays a o t drv p (.err c)) ∨
       (fail = true ∧ c = -24 ∧ ∃ p, Conflicted a o t drv p) ∨
       (c = -1 ∧ ∃ p, Conflicted a o t drv p ∧ ∃ l ∈ [a, o, t], ∃ i, itemAt l p = some i ∧ ¬ (pathValid p = true ∧ StoredMode i.1)))) := by
  classical
  obtain ⟨ps, hps, hmem, hstaged, hconf⟩ := differences ha ho ht
  set qs := ps.filter (fun p => decide (Changed a o t p)) with hqs
  have hq : ∀ p, p ∈ qs ↔ Changed a o t p := by
    intro p
    rw [hqs, List.mem_filter, decide_eq_true_iff]
    exact ⟨fun h => h.2, fun h => ⟨(hmem p).mpr (present_of_changed h), h⟩⟩
  have hqsorted : qs.Pairwise (fun a b => a < b) := hps.filter _
  have hstrip : (findDifferences a o t).conflicts.reverse.map strip = qs.map (fun p => strip (marked a o t p)) := by
    rw [hconf]
    apply List.map_congr_left
    intro p _
    unfold strip marked
    by_cases hdf : DirFile a o t p <;> simp [hdf]
  have hne24 : ∀ {p x}, Changed a o t p → resolve drv (marked a o t p) = .err x →
      x ≠ -24 ∧ ¬ DirFile a o t p ∧ rule (itemAt a p) (itemAt o p) (itemAt t p) = .contents ∧ DriverSays a o t drv p (.err x) := by
    intro p x hp h
    rcases marked_cases ha ho ht (drv := drv) hp with ⟨-, hr⟩ | ⟨hdf, ⟨e', -, hr, -⟩ | ⟨-, hr⟩ | ⟨hru, eo, et, he1, he2, hr⟩⟩
    · rw [hr] at h; cases h
    · rw [hr] at h; cases h
    · rw [hr] at h; cases h
    · rw [hr] at h
      cases hdr : drv (entryAt a p) eo et with
      | ok e' => rw [hdr] at h; cases h
      | ub => rw [hdr] at h; cases h
      | err y =>
        rw [hdr] at h
        simp only at h
        split at h
        · cases h
        · rename_i hx
          cases h
          exact ⟨hx, hdf, hru, eo, et, he1, he2, hdr⟩
  unfold mergeTrees
  simp only
  rcases resolveAll_ok drv fail (marked a o t) qs _ hstrip (findDifferences a o t).staged [] with ⟨x, h1, h2⟩ | ⟨h1, p, hp, h2⟩ | ⟨r, h1, h2, h3, h4, h5⟩
  · right
    rw [h1]
    refine ⟨x, rfl, ?_⟩
    rcases h2 with ⟨p, hp, h⟩ | ⟨hf, rfl, p, hp, h⟩
    · obtain ⟨g1, g2, g3, g4⟩ := hne24 ((hq p).mp hp) h
      exact .inl ⟨g1, p, g2, g3, g4⟩
    · exact .inr (.inl ⟨hf, rfl, p, (unresolved_iff ha ho ht ((hq p).mp hp)).mp h⟩)
  · exfalso
    rcases marked_cases ha ho ht (drv := drv) ((hq p).mp hp) with ⟨-, hr⟩ | ⟨hdf, ⟨e', -, hr, -⟩ | ⟨-, hr⟩ | ⟨hru, eo, et, he1, he2, hr⟩⟩
    · rw [hr] at h2; cases h2
    · rw [hr] at h2; cases h2
    · rw [hr] at h2; cases h2
    · rw [hr] at h2
      cases hdr : drv (entryAt a p) eo et with
      | ok e' => rw [hdr] at h2; cases h2
      | ub => exact hd.1 _ _ _ hdr
      | err y =>
        rw [hdr] at h2
        simp only at h2
        split at h2 <;> cases h2
  · rw [h1]
    simp only
    -- the staged entries
    have hS : ∀ e, e ∈ r.1 ↔ (∃ p ∈ ps, ¬ Changed a o t p ∧ entryAt a p = some e) ∨ (∃ p, Changed a o t p ∧ resolve drv (marked a o t p) = .ok (.resolved (some e))) := by
      intro e
      rw [h4, List.mem_append, hstaged, List.mem_map, List.mem_flatMap]
      constructor
      · rintro (⟨p, hp, rfl⟩ | ⟨p, hp, he⟩)
        · left
          rw [List.mem_filter] at hp
          have hnc : ¬ Changed a o t p := by simpa using hp.2
          have hsome : (entryAt a p).isSome = true := by
            by_contra hn
            have han : entryAt a p = none := by simpa using hn
            have : itemAt a p = itemAt o p ∧ itemAt a p = itemAt t p := by
              by_contra hc; exact hnc hc
            rw [item_none.mpr han] at this
            have o1 := item_none.mp this.1.symm
            have t1 := item_none.mp this.2.symm
            have := (hmem p).mp hp.1
            simp [han, o1, t1] at this
          obtain ⟨e, he⟩ := Option.isSome_iff_exists.mp hsome
          exact ⟨p, hp.1, hnc, by rw [he]; rfl⟩
        · right
          refine ⟨p, (hq p).mp hp, ?_⟩
          unfold Out.stagedOf at he
          split at he
          · rename_i e' hr
            rw [Option.mem_toList] at he
            rw [hr, show e' = some e from he]
          · cases he
      · rintro (⟨p, hp, hnc, he⟩ | ⟨p, hp, he⟩)
        · left
          refine ⟨p, List.mem_filter.mpr ⟨hp, by simpa using hnc⟩, by rw [he]; rfl⟩
        · right
          refine ⟨p, (hq p).mpr hp, ?_⟩
          rw [he]; simp [Out.stagedOf]
    have hSpath : ∀ e ∈ r.1, e.stage = 0 ∧ ¬ (e.mode &&& 0o170000 = 0o040000) := by
      intro e he
      rcases (hS e).mp he with ⟨p, -, -, h⟩ | ⟨p, hp, h⟩
      · have := ha.entry e (entryAt_mem h).1
        exact ⟨this.1, this.2.2.2⟩
      · exact (resolved_path ha ho ht hd hp h).2
    have hpair : r.1.Pairwise (fun a b => a.path ≠ b.path) := by
      rw [h4, List.pairwise_append]
      have hun : ∀ p ∈ ps.filter (fun p => ! decide (Changed a o t p)), ((entryAt a p).getD zeroEntry).path = p ∧ ¬ Changed a o t p := by
        intro p hp
        have hin : ((entryAt a p).getD zeroEntry) ∈ (findDifferences a o t).staged := by rw [hstaged]; exact List.mem_map_of_mem hp
        have hnc : ¬ Changed a o t p := by simpa using (List.mem_filter.mp hp).2
        refine ⟨?_, hnc⟩
        have hsome : (entryAt a p).isSome = true := by
          by_contra hn
          have han : entryAt a p = none := by simpa using hn
          have : itemAt a p = itemAt o p ∧ itemAt a p = itemAt t p := by
            by_contra hc; exact hnc hc
          rw [item_none.mpr han] at this
          have o1 := item_none.mp this.1.symm
          have t1 := item_none.mp this.2.symm
          have := (hmem p).mp (List.mem_filter.mp hp).1
          simp [han, o1, t1] at this
        obtain ⟨e, he⟩ := Option.isSome_iff_exists.mp hsome
        rw [he]
        exact (entryAt_mem he).2
      have hre : ∀ p ∈ qs, ∀ e ∈ Out.stagedOf (resolve drv (marked a o t p)), e.path = p := by
        intro p hp e he
        unfold Out.stagedOf at he
        split at he
        · rename_i e' hr
          rw [Option.mem_toList] at he
          rw [show e' = some e from he] at hr
          exact (resolved_path ha ho ht hd ((hq p).mp hp) hr).1
        · cases he
      refine ⟨?_, ?_, ?_⟩
      · rw [hstaged, List.pairwise_map]
        refine (hps.filter _).imp_of_mem ?_
        intro x y hx hy hlt
        rw [(hun x hx).1, (hun y hy).1]
        exact B.ne_of_lt hlt
      · rw [List.pairwise_flatMap]
        refine ⟨?_, ?_⟩
        · intro p hp
          unfold Out.stagedOf
          split
          · rename_i e' _; cases e' <;> simp
          · exact List.Pairwise.nil
        · refine hqsorted.imp_of_mem ?_
          intro x y hx hy hlt e he e' he'
          rw [hre x hx e he, hre y hy e' he']
          exact B.ne_of_lt hlt
      · intro e he e' he'
        rw [hstaged] at he
        obtain ⟨p, hp, rfl⟩ := List.mem_map.mp he
        obtain ⟨q, hqm, hq'⟩ := List.mem_flatMap.mp he'
        rw [(hun p hp).1, hre q hqm e' hq']
        intro heq
        rw [heq] at hp
        exact (hun q hp).2 ((hq q).mp hqm)
    obtain ⟨hfi, hfm⟩ := fill_ok r.1 (fun e he => (hSpath e he).1) hpair
    -- the conflicts
    set us := qs.filter (fun p => decide (resolve drv (marked a o t p) = .ok .unresolved)) with hus
    have hu : ∀ p, p ∈ us ↔ Changed a o t p ∧ Conflicted a o t drv p := by
      intro p
      rw [hus, List.mem_filter, decide_eq_true_iff, hq]
      constructor
      · rintro ⟨h1, h2⟩; exact ⟨h1, (unresolved_iff ha ho ht h1).mp h2⟩
      · rintro ⟨h1, h2⟩; exact ⟨h1, (unresolved_iff ha ho ht h1).mpr h2⟩
    have hcs : ∀ p, Conflicted a o t drv p → Changed a o t p := by
      rintro p (h | h | ⟨h, -⟩)
      · exact h.1
      · intro he
        rw [← he.1, ← he.2] at h
        simp [rule] at h
      · intro he
        rw [← he.1, ← he.2] at h
        simp [rule] at h
    have h5' : r.2.map sides = us.map (items a o t) := by
      rw [h5]
      simp only [List.map_nil, List.nil_append]
      apply List.map_congr_left
      intro p _
      simp only [sides, items, marked, diffAt, fromEntries]
      rw [side_getD (okay_at ha p), side_getD (okay_at ho p), side_getD (okay_at ht p)]
    have hnodup : us.Nodup := (hqsorted.filter _).imp (fun h => B.ne_of_lt h)
    have hfnew : ∀ p ∈ us, ∀ x ∈ (fill r.1).entries, x.path ≠ p := by
      intro p hp x hx hxp
      obtain ⟨hpc, hpcf⟩ := (hu p).mp hp
      obtain ⟨e, he, rfl⟩ := (hfm x).mp hx
      have hep : e.path = p := hxp
      rcases (hS e).mp he with ⟨q, -, hnc, h⟩ | ⟨q, hqc, h⟩
      · rw [← (entryAt_mem h).2, hep] at hnc
        exact hnc hpc
      · have hqp := (resolved_path ha ho ht hd hqc h).1
        rw [hep] at hqp
        rw [← hqp, (unresolved_iff ha ho ht hpc).mpr hpcf] at h
        cases h
    unfold indexFromDiffList
    rcases addConflicts_ok pathValid ha ho ht us r.2 h5' hnodup (fill r.1) hfi (by
        intro x hx hs
        obtain ⟨e, he, rfl⟩ := (hfm x).mp hx
        exact absurd rfl hs) hfnew with ⟨st, k1, k2, k3, k4⟩ | ⟨k1, p, hp, e, he, hne⟩
    · left
      rw [k1]
      refine ⟨st, rfl, ?_, ?_⟩
      · intro hf p hc
        exact h3 hf p ((hq p).mpr (hcs p hc)) ((unresolved_iff ha ho ht (hcs p hc)).mpr hc)
      · -- lookups
        have hget : ∀ p s x, getBypath st p s = some x ↔ x ∈ st.entries ∧ x.path = p ∧ x.stage = s := fun p s x => k2.agree p s x
        have hx0 : ∀ x, x ∈ st.entries ↔ (∃ e ∈ r.1, x = stored e 0) ∨ ∃ p ∈ us, ∃ i e, (items a o t p)[i]? = some (some e) ∧ x = stored e (1 + i) := by
          intro x; rw [k4, hfm]
        have hitem : ∀ p (i : Nat) e, (items a o t p)[i]? = some (some e) → e.path = p ∧ i < 3 := by
          intro p i e hi
          have : items a o t p = [a, o, t].map (fun l => entryAt l p) := rfl
          rw [this, List.getElem?_map, Option.map_eq_some_iff] at hi
          obtain ⟨l, h1, h2⟩ := hi
          exact ⟨(entryAt_mem h2).2, by have := (List.getElem?_eq_some_iff.mp h1).1; simpa using this⟩
        have hnone : ∀ p s, (∀ x ∈ st.entries, x.path = p → x.stage = s → False) → stageItem st p s = none := by
          intro p s h
          unfold stageItem
          rw [Option.map_eq_none_iff]
          cases hg : getBypath st p s with
          | none => rfl
          | some x =>
            obtain ⟨g1, g2, g3⟩ := (hget p s x).mp hg
            exact (h x g1 g2 g3).elim
        intro p
        refine ⟨?_, ?_, ?_⟩
        · intro s hs
          apply hnone
          intro x hx hxp hxs
          rcases (hx0 x).mp hx with ⟨e, -, rfl⟩ | ⟨q, -, i, e, hi, rfl⟩
          · simp only [stored] at hxs; omega
          · have := (hitem q i e hi).2
            simp only [stored] at hxs; omega
        · intro hc
          have hch := hcs p hc
          have hpu : p ∈ us := (hu p).mpr ⟨hch, hc⟩
          have hst : ∀ i l, [a, o, t][i]? = some l → stageItem st p (1 + i) = itemAt l p := by
            intro i l hl
            have hil : (items a o t p)[i]? = some (entryAt l p) := by
              have : items a o t p = [a, o, t].map (fun l => entryAt l p) := rfl
              rw [this, List.getElem?_map, hl]; rfl
            cases he : entryAt l p with
            | none =>
              rw [item_none.mpr he]
              apply hnone
              intro x hx hxp hxs
              rcases (hx0 x).mp hx with ⟨e, -, rfl⟩ | ⟨q, -, j, e, hj, rfl⟩
              · simp only [stored] at hxs; omega
              · have hqp : q = p := by rw [← (hitem q j e hj).1]; exact hxp
                have hji : j = i := by simp only [stored] at hxs; omega
                subst hqp; subst hji
                rw [hil, he] at hj
                cases hj
            | some e =>
              rw [he] at hil
              have hin : stored e (1 + i) ∈ st.entries := (hx0 _).mpr (.inr ⟨p, hpu, i, e, hil, rfl⟩)
              have hg := (hget p (1 + i) (stored e (1 + i))).mpr ⟨hin, (hitem p i e hil).1, rfl⟩
              unfold stageItem
              rw [hg, itemAt_eq, he]
              have hsm : StoredMode e.mode := (k3 p hpu e (List.mem_of_getElem? hil)).2
              simp [stored, toItem, createMode_stored hsm]
          refine ⟨?_, hst 0 a rfl, hst 1 o rfl, hst 2 t rfl⟩
          apply hnone
          intro x hx hxp hxs
          rcases (hx0 x).mp hx with ⟨e, he, rfl⟩ | ⟨q, -, i, e, hi, rfl⟩
          · exact hfnew p hpu _ ((hfm _).mpr ⟨e, he, rfl⟩) hxp
          · simp only [stored] at hxs; omega
        · intro hc
          have hs0 : ∀ e, e ∈ r.1 → e.path = p → stageItem st p 0 = some (canonMode e.mode, e.id) := by
            intro e he hep
            have hin : stored e 0 ∈ st.entries := (hx0 _).mpr (.inl ⟨e, he, rfl⟩)
            have hg := (hget p 0 (stored e 0)).mpr ⟨hin, hep, rfl⟩
            unfold stageItem
            rw [hg]
            simp [stored, createMode_canon (hSpath e he).2]
          have hs0n : (∀ e ∈ r.1, e.path ≠ p) → stageItem st p 0 = none := by
            intro hn
            apply hnone
            intro x hx hxp hxs
            rcases (hx0 x).mp hx with ⟨e, he, rfl⟩ | ⟨q, -, i, e, hi, rfl⟩
            · exact hn e he hxp
            · simp only [stored] at hxs; omega
          refine ⟨?_, ?_, ?_⟩
          · intro s hs
            apply hnone
            intro x hx hxp hxs
            rcases (hx0 x).mp hx with ⟨e, -, rfl⟩ | ⟨q, hqu, i, e, hi, rfl⟩
            · exact hs hxs.symm
            · have hqp : q = p := by rw [← (hitem q i e hi).1]; exact hxp
              rw [hqp] at hqu
              exact hc ((hu p).mp hqu).2
          · intro x hx
            by_cases hch : Changed a o t p
            · rcases marked_cases ha ho ht (drv := drv) hch with ⟨hdf, -⟩ | ⟨hdf, ⟨e, hru, hr, he⟩ | ⟨hru, -⟩ | ⟨hru, -⟩⟩
              · exact absurd (.inl hdf) hc
              · rw [hru] at hx
                cases hx
                cases e with
                | none =>
                  apply hs0n
                  intro e' he' hep
                  rcases (hS e').mp he' with ⟨q, -, hnc, h⟩ | ⟨q, hqc, h⟩
                  · rw [← (entryAt_mem h).2, hep] at hnc
                    exact hnc hch
                  · have hqp := (resolved_path ha ho ht hd hqc h).1
                    rw [hep] at hqp
                    rw [← hqp, hr] at h
                    cases h
                | some e =>
                  rw [hs0 e ((hS e).mpr (.inr ⟨p, hch, hr⟩)) (resolved_path ha ho ht hd hch hr).1]
                  rfl
              · rw [hru] at hx; cases hx
              · rw [hru] at hx; cases hx
            · have heq : itemAt a p = itemAt o p ∧ itemAt a p = itemAt t p := by
                by_contra hne; exact hch hne
              have hx' : x = itemAt a p := by
                rw [← heq.1, ← heq.2] at hx
                simp only [rule, if_true] at hx
                cases hx; rfl
              rw [hx']
              cases he : entryAt a p with
              | none =>
                rw [item_none.mpr he]
                apply hs0n
                intro e' he' hep
                rcases (hS e').mp he' with ⟨q, -, -, h⟩ | ⟨q, hqc, h⟩
                · have := (entryAt_mem h).2
                  rw [hep] at this
                  rw [← this, he] at h
                  cases h
                · have hqp := (resolved_path ha ho ht hd hqc h).1
                  rw [hep] at hqp
                  rw [← hqp] at hqc
                  exact hch hqc
              | some e =>
                have hpin : p ∈ ps := (hmem p).mpr (.inl (by rw [he]; rfl))
                rw [hs0 e ((hS e).mpr (.inl ⟨p, hpin, hch, he⟩)) (entryAt_mem he).2, itemAt_eq, he]
                rfl
          · intro hx
            have hch : Changed a o t p := by
              intro heq
              rw [← heq.1, ← heq.2] at hx
              simp [rule] at hx
            rcases marked_cases ha ho ht (drv := drv) hch with ⟨hdf, -⟩ | ⟨hdf, ⟨e, hru, -, -⟩ | ⟨hru, -⟩ | ⟨hru, eo, et, he1, he2, hr⟩⟩
            · exact absurd (.inl hdf) hc
            · rw [hru] at hx; cases hx
            · rw [hru] at hx; cases hx
            · obtain ⟨out, hout⟩ := h2 p ((hq p).mpr hch)
              cases hdr : drv (entryAt a p) eo et with
              | ok e =>
                rw [hdr] at hr
                exact ⟨e, ⟨eo, et, he1, he2, hdr⟩, hs0 e ((hS e).mpr (.inr ⟨p, hch, hr⟩)) (resolved_path ha ho ht hd hch hr).1⟩
              | ub => exact absurd hdr (hd.1 _ _ _)
              | err y =>
                exfalso
                rw [hdr] at hr
                simp only at hr
                split at hr
                · exact hc ((unresolved_iff ha ho ht hch).mp hr)
                · rw [hr] at hout; cases hout
    · right
      rw [k1]
      refine ⟨-1, rfl, .inr (.inr ⟨rfl, p, ((hu p).mp hp).2, ?_⟩)⟩
      have : items a o t p = [a, o, t].map (fun l => entryAt l p) := rfl
      rw [this] at he
      obtain ⟨l, hl, hle⟩ := List.mem_map.mp he
      exact ⟨l, hl, toItem e, by rw [itemAt_eq, hle]; rfl, hne⟩

end

/-! ## Consequences -/

theorem noDf_of_side {a o t x : List Entry} (hx : IsTree x) (h : ∀ p, Touched a o t p → itemAt x p ≠ none) (p : Bytes) : ¬ DirFile a o t p := by
  rintro ⟨-, h1, q, -, -, -, h2, h3⟩
  have h1 := h p h1
  have h2 := h q h2
  rw [ne_eq, item_none] at h1 h2
  obtain ⟨e, he⟩ := Option.ne_none_iff_exists'.mp h1
  obtain ⟨e', he'⟩ := Option.ne_none_iff_exists'.mp h2
  obtain ⟨m1, rfl⟩ := entryAt_mem he
  obtain ⟨m2, rfl⟩ := entryAt_mem he'
  exact hx.files e m1 e' m2 h3

/-- **C31 (one side).** When only one side changed anything, or both made the same changes, the merge succeeds whatever the flags, and
the index is that side: stage 0 of every path holds what the side has there, and there are no conflicts. -/
theorem C31_one_side {drv : Driver} {a o t : List Entry} (ha : IsTree a) (ho : IsTree o) (ht : IsTree t) (hd : GoodDriver drv)
    (pathValid : Bytes → Bool) (fail : Bool) (x : List Entry) (hcase : (t = a ∧ x = o) ∨ (o = a ∧ x = t) ∨ (o = t ∧ x = o)) :
    ∃ st, mergeTrees drv pathValid fail a o t = .ok st ∧
      ∀ p, stageItem st p 0 = (itemAt x p).map (fun i => (canonMode i.1, i.2)) ∧ ∀ s, s ≠ 0 → stageItem st p s = none := by
  have hrule : ∀ p, rule (itemAt a p) (itemAt o p) (itemAt t p) = .take (itemAt x p) := by
    intro p
    unfold rule
    rcases hcase with ⟨rfl, rfl⟩ | ⟨rfl, rfl⟩ | ⟨rfl, rfl⟩
    · split
      · rfl
      · split
        · rfl
        · rename_i h; exact absurd rfl h
    · split
      · rename_i h1; rw [h1]
      · rw [if_pos rfl]
    · rw [if_pos rfl]
  have hself : ∀ i : Option Item, ¬ AddedOrModified i i := by
    intro i
    cases i <;> simp [AddedOrModified]
  have hpres : ∀ {i j : Option Item}, AddedOrModified i j → j ≠ none := by
    intro i j h hn
    have := added_present h
    rw [hn] at this
    cases this
  have hndf : ∀ p, ¬ DirFile a o t p := by
    rcases hcase with ⟨rfl, rfl⟩ | ⟨rfl, rfl⟩ | ⟨rfl, rfl⟩
    · exact noDf_of_side ho (fun p h => h.elim hpres (fun h => absurd h (hself _)))
    · exact noDf_of_side ht (fun p h => h.elim (fun h => absurd h (hself _)) hpres)
    · exact noDf_of_side ho (fun p h => h.elim hpres hpres)
  have hnc : ∀ p, ¬ Conflicted a o t drv p := by
    rintro p (h | h | ⟨h, -⟩)
    · exact hndf p h
    · rw [hrule] at h; cases h
    · rw [hrule] at h; cases h
  rcases C31_path ha ho ht hd pathValid fail with ⟨st, h1, -, h2⟩ | ⟨c, -, ⟨-, p, -, h, -⟩ | ⟨-, -, p, h⟩ | ⟨-, p, h, -⟩⟩
  · refine ⟨st, h1, fun p => ?_⟩
    obtain ⟨g1, g2, -⟩ := (h2 p).2.2 (hnc p)
    exact ⟨g2 _ (hrule p), g1⟩
  · rw [hrule] at h; cases h
  · exact absurd h (hnc p)
  · exact absurd h (hnc p)

theorem rule_swap (a o t : Option Item) : rule a t o = (match rule a o t with | .take x => .take x | .contents => .contents | .conflict => .conflict) := by
  have hm : Mergeable a t o ↔ Mergeable a o t := by
    unfold Mergeable
    cases o <;> cases t <;> simp only
    constructor
    · rintro ⟨h1, h2, h3, h4⟩
      exact ⟨h2, h1, fun x hx => ⟨(h3 x hx).1, (h3 x hx).2.2, (h3 x hx).2.1⟩, fun hx => ⟨(h4 hx).2, (h4 hx).1⟩⟩
    · rintro ⟨h1, h2, h3, h4⟩
      exact ⟨h2, h1, fun x hx => ⟨(h3 x hx).1, (h3 x hx).2.2, (h3 x hx).2.1⟩, fun hx => ⟨(h4 hx).2, (h4 hx).1⟩⟩
  unfold rule
  by_cases h1 : o = t
  · simp [h1]
  · have h1' : ¬ t = o := fun h => h1 h.symm
    simp only [if_neg h1, if_neg h1']
    by_cases h2 : o = a
    · have h3 : ¬ t = a := fun h => h1 (h2.trans h.symm)
      simp [h2, h3]
    · by_cases h3 : t = a
      · simp [h2, h3]
      · simp only [if_neg h2, if_neg h3]
        by_cases h4 : Mergeable a o t
        · simp only [if_pos h4, if_pos (hm.mpr h4)]
        · simp only [if_neg h4, if_neg (fun h => h4 (hm.mp h))]

theorem rule_swap' (a o t : Option Item) : rule a t o = rule a o t := by
  rw [rule_swap]; cases rule a o t <;> rfl

theorem conflicted_swap {drv : Driver} (hsym : ∀ x y z, drv x y z = drv x z y) {a o t : List Entry} {p : Bytes} (h : Conflicted a o t drv p) : Conflicted a t o drv p := by
  have hch : ∀ p, Changed a o t p ↔ Changed a t o p := fun p => by unfold Changed; rw [and_comm]
  have hto : ∀ p, Touched a o t p ↔ Touched a t o p := fun p => by unfold Touched; rw [or_comm]
  rcases h with h | h | ⟨h, eo, et, h1, h2, h3⟩
  · left
    obtain ⟨g1, g2, q, g3, g4, g5, g6, g7⟩ := h
    exact ⟨(hch p).mp g1, (hto p).mp g2, q, (hch q).mp g3, g4, fun r k1 k2 k3 => g5 r k1 k2 ((hch r).mpr k3), (hto q).mp g6, g7⟩
  · right; left
    rw [rule_swap']; exact h
  · right; right
    refine ⟨by rw [rule_swap']; exact h, et, eo, h2, h1, by rw [hsym]; exact h3⟩

/-- **C31 (symmetry).** With a driver that does not care which side is which, exchanging ours and theirs gives the same stage 0 and the same
conflicts, with the stages 2 and 3 exchanged. -/
theorem C31_swap {drv : Driver} {a o t : List Entry} (ha : IsTree a) (ho : IsTree o) (ht : IsTree t) (hd : GoodDriver drv)
    (hsym : ∀ x y z, drv x y z = drv x z y) (pathValid : Bytes → Bool) (fail : Bool) (st st' : St)
    (h : mergeTrees drv pathValid fail a o t = .ok st) (h' : mergeTrees drv pathValid fail a t o = .ok st') (p : Bytes) :
    stageItem st' p 0 = stageItem st p 0 ∧ stageItem st' p 1 = stageItem st p 1 ∧ stageItem st' p 2 = stageItem st p 3 ∧ stageItem st' p 3 = stageItem st p 2 := by
  have g : ∀ {o t : List Entry} {st : St}, IsTree o → IsTree t → mergeTrees drv pathValid fail a o t = .ok st →
      ((Conflicted a o t drv p → stageItem st p 0 = none ∧ stageItem st p 1 = itemAt a p ∧ stageItem st p 2 = itemAt o p ∧ stageItem st p 3 = itemAt t p) ∧
        (¬ Conflicted a o t drv p → (∀ s, s ≠ 0 → stageItem st p s = none) ∧
          (∀ x, rule (itemAt a p) (itemAt o p) (itemAt t p) = .take x → stageItem st p 0 = x.map (fun i => (canonMode i.1, i.2))) ∧
          (rule (itemAt a p) (itemAt o p) (itemAt t p) = .contents → ∃ e, DriverSays a o t drv p (.ok e) ∧ stageItem st p 0 = some (canonMode e.mode, e.id)))) := by
    intro o t st ho ht h
    rcases C31_path ha ho ht hd pathValid fail with ⟨st2, h1, -, h2⟩ | ⟨c, h1, -⟩
    · rw [h] at h1
      cases h1
      exact (h2 p).2
    · rw [h] at h1; cases h1
  obtain ⟨c1, n1⟩ := g ho ht h
  obtain ⟨c2, n2⟩ := g ht ho h'
  by_cases hc : Conflicted a o t drv p
  · have hc' := conflicted_swap hsym hc
    obtain ⟨p0, p1, p2, p3⟩ := c1 hc
    obtain ⟨q0, q1, q2, q3⟩ := c2 hc'
    rw [p0, p1, p2, p3, q0, q1, q2, q3]
    exact ⟨rfl, rfl, rfl, rfl⟩
  · have hc' : ¬ Conflicted a t o drv p := fun h => hc (conflicted_swap hsym h)
    obtain ⟨p0, p1, p2⟩ := n1 hc
    obtain ⟨q0, q1, q2⟩ := n2 hc'
    rw [p0 1 (by omega), p0 2 (by omega), p0 3 (by omega), q0 1 (by omega), q0 2 (by omega), q0 3 (by omega)]
    refine ⟨?_, rfl, rfl, rfl⟩
    have hr := rule_swap' (itemAt a p) (itemAt o p) (itemAt t p)
    cases hru : rule (itemAt a p) (itemAt o p) (itemAt t p) with
    | take x => rw [p1 x hru, q1 x (by rw [hr, hru])]
    | conflict => exact absurd (.inr (.inl hru)) hc
    | contents =>
      obtain ⟨e, ⟨eo, et, k1, k2, k3⟩, k4⟩ := p2 hru
      obtain ⟨e', ⟨et', eo', l1, l2, l3⟩, l4⟩ := q2 (by rw [hr, hru])
      rw [k1] at l2; rw [k2] at l1
      cases l1; cases l2
      rw [hsym, k3] at l3
      cases l3
      rw [k4, l4]

/-! ## Where the merge does not notice -/

/-- a driver that cannot merge anything -/
def noDriver : Driver := fun _ _ _ => .err (-24)

theorem noDriver_good : GoodDriver noDriver := ⟨by simp [noDriver], by simp [noDriver]⟩

def file (p : Bytes) (i : UInt8) (m : Nat := 0o100644) : Entry := ⟨p, 0, m, List.replicate 20 i, []⟩

theorem isTree_of {l : List Entry} (h1 : l.Pairwise (fun a b => a.path < b.path))
    (h2 : ∀ e ∈ l, e.stage = 0 ∧ e.path ≠ [] ∧ e.mode ≠ 0 ∧ ¬ (e.mode &&& 0o170000 = 0o040000))
    (h3 : ∀ e ∈ l, ∀ e' ∈ l, pathIsPrefixed e.path e'.path = false) : IsTree l :=
  ⟨h1, h2, fun e he e' he' hb => (by have := pathIsPrefixed_iff.mpr hb; rw [h3 e he e' he'] at this; cases this)⟩

/-- the paths and stages of the resulting index -/
def keysOf (r : Res St) : Res (List (Bytes × Nat)) := r >>= fun st => .ok (st.entries.map (fun e => (e.path, e.stage)))

/-- **C31, a defect.** A file added by one side and a directory of the same name added by the other are not noticed when a path that lies
between them in the order of the trees was changed too: the merge succeeds, without conflicts, with an index that holds both `a` and `a/x`. -/
theorem C31_df_missed : ∃ a o t : List Entry, IsTree a ∧ IsTree o ∧ IsTree t ∧
    keysOf (mergeTrees noDriver (fun _ => true) true a o t) = .ok [(b!"a", 0), (b!"a.c", 0), (b!"a/x", 0)] := by
  exact ⟨[], [file b!"a" 1, file b!"a.c" 2], [file b!"a/x" 3], isTree_of (by decide +kernel) (by decide +kernel) (by decide +kernel), isTree_of (by decide +kernel) (by decide +kernel) (by decide +kernel), isTree_of (by decide +kernel) (by decide +kernel) (by decide +kernel), by decide +kernel⟩

/-- **C31, a defect.** One side replaces the directory `p` (with the file `p/a` in it) by a file `p`, the other adds `p/x`: the merge succeeds,
without conflicts, with an index that holds both `p` and `p/x`, because the next change after `p` is the deletion of `p/a`. -/
theorem C31_df_deleted : ∃ a o t : List Entry, IsTree a ∧ IsTree o ∧ IsTree t ∧
    keysOf (mergeTrees noDriver (fun _ => true) true a o t) = .ok [(b!"p", 0), (b!"p/x", 0)] := by
  exact ⟨[file b!"p/a" 1], [file b!"p" 2], [file b!"p/a" 1, file b!"p/x" 3], isTree_of (by decide +kernel) (by decide +kernel) (by decide +kernel), isTree_of (by decide +kernel) (by decide +kernel) (by decide +kernel), isTree_of (by decide +kernel) (by decide +kernel) (by decide +kernel), by decide +kernel⟩

/-- **C31, a defect.** A conflict on a file whose mode is one that git accepts in trees but the index does not store (0100664) makes the
merge fail, without reporting a conflict. -/
theorem C31_legacy_mode : ∃ a o t : List Entry, IsTree a ∧ IsTree o ∧ IsTree t ∧ mergeTrees noDriver (fun _ => true) false a o t = .err (-1) := by
  exact ⟨[file b!"f" 1 0o100664], [file b!"f" 2 0o100664], [file b!"f" 3 0o100664], isTree_of (by decide +kernel) (by decide +kernel) (by decide +kernel), isTree_of (by decide +kernel) (by decide +kernel) (by decide +kernel), isTree_of (by decide +kernel) (by decide +kernel) (by decide +kernel), rfl⟩

/-! ## The hypotheses are met -/

/-- the changes of both sides, a conflict, a removal, and a clash of a file with a directory that is noticed -/
example : keysOf (mergeTrees noDriver (fun _ => true) false
    [file b!"both" 1, file b!"gone" 1, file b!"ours" 1, file b!"same" 1, file b!"theirs" 1]
    [file b!"both" 2, file b!"d" 5, file b!"gone" 1, file b!"ours" 2, file b!"same" 1, file b!"theirs" 1]
    [file b!"both" 3, file b!"d/x" 6, file b!"ours" 1, file b!"same" 1, file b!"theirs" 2]) =
    .ok [(b!"both", 1), (b!"both", 2), (b!"both", 3), (b!"d", 2), (b!"d/x", 0), (b!"ours", 0), (b!"same", 0), (b!"theirs", 0)] := by decide +kernel

example : IsTree [file b!"both" 3, file b!"d/x" 6, file b!"ours" 1, file b!"same" 1, file b!"theirs" 2] :=
  isTree_of (by decide +kernel) (by decide +kernel) (by decide +kernel)

/-- a driver that merges files by taking ours -/
example : keysOf (mergeTrees (fun _ o _ => .ok o) (fun _ => true) true [file b!"f" 1] [file b!"f" 2] [file b!"f" 3]) = .ok [(b!"f", 0)] := by decide +kernel

/-- a caller that wants no conflicts -/
example : mergeTrees noDriver (fun _ => true) true [file b!"f" 1] [file b!"f" 2] [file b!"f" 3] = .err (-24) := rfl

/-- three lists walked together -/
example : (walk [[file b!"a" 1, file b!"c" 1], [file b!"b" 2, file b!"c" 2], [file b!"a" 3]]).map (fun l => l.map Option.isSome) =
    [[true, false, true], [false, true, false], [true, true, false]] := by decide +kernel

end Verif.Merge
