import Verif.IndexTree.Lemmas6
/-! # Changing the index keeps the cache right -/
namespace Verif.IndexTree
open Spec

theorem removeDirLoop_sub (pfx : Bytes) (stage : Nat) (fuel : Nat) : ∀ {pos : Nat} {st st' : Index.St}, Index.removeDirLoop pfx stage fuel pos st = .ok st' →
    ∀ x ∈ st'.entries, x ∈ st.entries := by
  induction fuel with
  | zero => intro pos st st' h; simp [Index.removeDirLoop] at h
  | succ fuel ih =>
    intro pos st st' h x hx
    rw [Index.removeDirLoop] at h
    split at h
    · cases h; exact hx
    · split at h
      · cases h; exact hx
      · split at h
        · exact ih h x hx
        · rename_i e he _ _
          simp only [Index.removeEntry, he] at h
          exact List.mem_of_mem_eraseIdx (ih h x hx)

theorem step_kinds (ienv : Index.Env) {st st' : Index.St} (hi : Index.Inv st) {op : Index.Op} (h : Index.step ienv st op = some st') :
    Index.Inv st' ∧ ∀ x ∈ st'.entries, x ∈ st.entries ∨ x.stage ≠ 0 ∨ x.path ∈ added ienv st op := by
  refine ⟨?_, ?_⟩
  · obtain ⟨s, h1, h2⟩ := Index.step_inv ienv hi op
    rw [h] at h1; cases h1; exact h2
  cases op with
  | add e =>
    rcases Index.add_cases ienv hi e with ⟨g, -⟩ | ⟨s, g, -, -, -, g5, -, -⟩
    · simp only [Index.step, g, Index.after, Option.some.injEq] at h
      subst h; exact fun x hx => .inl hx
    · simp only [Index.step, g, Index.after, Option.some.injEq] at h
      subst h
      intro x hx
      rcases g5 x hx with rfl | ⟨hx, -⟩
      · right; right; simp only [added, g]; simp [Index.stored]
      · exact .inl hx
  | remove p s =>
    rcases Index.remove_ok hi p s with ⟨g, -⟩ | ⟨s, g, -, -, g4⟩
    · simp only [Index.step, g, Index.after, Option.some.injEq] at h
      subst h; exact fun x hx => .inl hx
    · simp only [Index.step, g, Index.after, Option.some.injEq] at h
      subst h; exact fun x hx => .inl ((g4 x).mp hx).1
  | removeDirectory d s =>
    obtain ⟨s', g, -⟩ := Index.removeDirectory_inv hi d s
    have g' := g
    simp only [Index.step, g, Index.after, Option.some.injEq] at h
    subst h
    unfold Index.removeDirectory at g'
    simp only at g'
    split at g'
    · cases g'
    · cases g'
    · exact fun x hx => .inl (removeDirLoop_sub _ _ _ g' x hx)
  | clear =>
    obtain ⟨s', g, -, g3⟩ := Index.clear_ok st
    simp only [Index.step, g, Index.after, Option.some.injEq] at h
    subst h
    intro x hx; rw [g3] at hx; simp at hx
  | conflictAdd a o t =>
    rcases Index.conflictAdd_cases ienv hi a o t with ⟨g, -⟩ | ⟨-, st0, s', c, g, -, -, g4, -, -, g7, -⟩
    · simp only [Index.step, g, Option.some.injEq] at h
      subst h; exact fun x hx => .inl hx
    · simp only [Index.step, g, Option.some.injEq] at h
      subst h
      intro x hx
      rcases g7 x hx with ⟨i, e, -, rfl⟩ | hx
      · right; left; simp only [Index.stored]; omega
      · exact .inl ((g4 x).mp hx).1
  | conflictRemove p =>
    rcases Index.conflictRemove_ok hi p with ⟨g, -⟩ | ⟨s, g, -, -, g4⟩
    · simp only [Index.step, g, Index.after, Option.some.injEq] at h
      subst h; exact fun x hx => .inl hx
    · simp only [Index.step, g, Index.after, Option.some.injEq] at h
      subst h
      intro x hx; rw [g4] at hx; exact .inl (List.mem_filter.mp hx).1
  | conflictCleanup =>
    obtain ⟨s', g, -, g3⟩ := Index.conflictCleanup_ok hi
    simp only [Index.step, g, Index.after, Option.some.injEq] at h
    subst h
    intro x hx; rw [g3] at hx; exact .inl (List.mem_filter.mp hx).1

theorem filesIn_kept {st st' : Index.St} (hi : Index.Inv st) (hi' : Index.Inv st') {ad : List Bytes}
    (h : ∀ x ∈ st'.entries, x ∈ st.entries ∨ x.stage ≠ 0 ∨ x.path ∈ ad) (p : Bytes) (hp : p ∉ removedPaths st st' ++ ad) (m : Nat) (i : Bytes) :
    filesIn st [] p m i ↔ filesIn st' [] p m i := by
  simp only [List.mem_append, not_or] at hp
  simp only [filesIn, pre, if_true, List.nil_append]
  constructor
  · rintro ⟨e, he, h0, hpe, hm, hid⟩
    have hsome : st'.emap e.path e.stage ≠ none := by
      intro hn
      apply hp.1
      rw [removedPaths, List.mem_map]
      exact ⟨e, List.mem_filter.mpr ⟨he, by simp [hn]⟩, hpe⟩
    obtain ⟨y, hy⟩ := Option.ne_none_iff_exists'.mp hsome
    obtain ⟨hy1, hy2, hy3⟩ := (hi'.agree _ _ _).mp hy
    rcases h y hy1 with hyo | hyo | hyo
    · have := hi.unique hyo he hy2 hy3
      subst this
      exact ⟨y, hy1, h0, hpe, hm, hid⟩
    · exact absurd (hy3.trans h0) hyo
    · rw [hy2, hpe] at hyo; exact absurd hyo hp.2
  · rintro ⟨e, he, h0, hpe, hm, hid⟩
    rcases h e he with h1 | h1 | h1
    · exact ⟨e, h1, h0, hpe, hm, hid⟩
    · exact absurd h0 h1
    · rw [hpe] at h1; exact absurd h1 hp.2

theorem cacheRight_none (odb : Odb) (idx : Index.St) : CacheRight odb idx none :=
  ⟨fun _ h => (Option.some_ne_none _ h.symm).elim, fun _ _ _ h => (Option.some_ne_none _ h.symm).elim, rfl⟩

theorem cacheRight_step (ienv : Index.Env) {s s' : St} (hi : Index.Inv s.idx) (hc : CacheRight s.odb s.idx s.cache) {op : Index.Op} (h : indexStep ienv s op = some s') :
    Index.Inv s'.idx ∧ CacheRight s'.odb s'.idx s'.cache ∧ s'.odb = s.odb := by
  rw [indexStep] at h
  split at h
  · rename_i idx' hst
    simp only [Option.some.injEq] at h
    subst h
    obtain ⟨h1, h2⟩ := step_kinds ienv hi hst
    refine ⟨h1, ?_, rfl⟩
    have key : CacheRight s.odb idx' (touch s.cache s.idx idx' (added ienv s.idx op)) :=
      cacheRight_change hc (fun p hp m i => filesIn_kept hi h1 h2 p hp m i)
    cases op with
    | clear => exact cacheRight_none _ _
    | _ => exact key
  · cases h

end Verif.IndexTree
