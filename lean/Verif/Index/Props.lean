import Verif.Index.LemmasOps
import Verif.Index.Spec
/-! # Properties of the index: C22, C24, C51 -/
namespace Verif.Index
open Spec

/-- what a caller can do to an index -/
inductive Op where
  | add (e : Entry)
  | remove (path : Bytes) (stage : Nat)
  | removeDirectory (dir : Bytes) (stage : Nat)
  | clear
  | conflictAdd (ancestor ours theirs : Option Entry)
  | conflictRemove (path : Bytes)
  | conflictCleanup

/-- the state after a call that returned: an error leaves the model's state as it was, except for `conflictAdd`, which reports its
code beside the state it leaves behind -/
def after (st : St) : Res St → Option St
  | .ok st' => some st'
  | .err _ => some st
  | .ub => none

/-- one call; `none` if it performed undefined behaviour -/
def step (env : Env) (st : St) : Op → Option St
  | .add e => after st (add env st e)
  | .remove p s => after st (remove st p s)
  | .removeDirectory d s => after st (removeDirectory st d s)
  | .clear => after st (clear st)
  | .conflictAdd a o t => match conflictAdd env st a o t with
    | .ok (st', _) => some st'
    | .err _ => some st
    | .ub => none
  | .conflictRemove p => after st (conflictRemove st p)
  | .conflictCleanup => after st (conflictCleanup st)

/-- a history of calls -/
def runOps (env : Env) : St → List Op → Option St
  | st, [] => some st
  | st, op :: ops => (step env st op).bind (fun st' => runOps env st' ops)

/-- the states a program can reach from an empty index -/
def Reachable (env : Env) (st : St) : Prop := ∃ ops, runOps env init ops = some st

theorem conflictAdd_cases (env : Env) {st : St} (hi : Inv st) (a o t : Option Entry) :
    (conflictAdd env st a o t = .ok (st, -1) ∧ ∃ e, some e ∈ [a, o, t] ∧ ¬ (env.pathValid e.path = true ∧ StoredMode e.mode)) ∨
    ((∀ e, some e ∈ [a, o, t] → env.pathValid e.path = true ∧ StoredMode e.mode) ∧
     ∃ st0 st' c, conflictAdd env st a o t = .ok (st', c) ∧ Inv st0 ∧ Inv st' ∧
      (∀ x, x ∈ st0.entries ↔ x ∈ st.entries ∧ ¬ (x.stage = 0 ∧ ∃ e, some e ∈ [a, o, t] ∧ e.path = x.path)) ∧
      (c = 0 ↔ ∀ e, some e ∈ [a, o, t] → objOk env e) ∧
      (c = 0 → ∀ i e, [a, o, t][i]? = some (some e) → stored e (1 + i) ∈ st'.entries) ∧
      (∀ x ∈ st'.entries, (∃ i e, [a, o, t][i]? = some (some e) ∧ x = stored e (1 + i)) ∨ x ∈ st0.entries) ∧
      (∀ x ∈ st0.entries, x ∈ st'.entries ∨ ∃ i e, [a, o, t][i]? = some (some e) ∧ x.stage = 1 + i ∧ (x.path = e.path ∨ Collide e.path x.path))) := by
  have hv : ∀ m, validFilemode m = true ↔ StoredMode m := by intro m; simp [validFilemode, StoredMode]
  have hbad : ∀ ok : Entry → Bool, [a, o, t].any (bad ok) = true → ∃ e, some e ∈ [a, o, t] ∧ ok e = false := by
    intro ok h
    rw [List.any_eq_true] at h
    obtain ⟨y, hy, hb⟩ := h
    cases y with
    | none => cases hb
    | some e => exact ⟨e, hy, by simpa [bad] using hb⟩
  have hgood : ∀ ok : Entry → Bool, ¬ [a, o, t].any (bad ok) = true → ∀ e, some e ∈ [a, o, t] → ok e = true := by
    intro ok h e he
    by_contra hc
    apply h
    rw [List.any_eq_true]
    exact ⟨some e, he, by simpa [bad] using hc⟩
  unfold conflictAdd
  simp only
  by_cases h1 : [a, o, t].any (bad (fun e => env.pathValid e.path)) = true
  · left
    rw [if_pos h1]
    obtain ⟨e, he, hb⟩ := hbad _ h1
    exact ⟨rfl, e, he, fun h => by rw [hb] at h; cases h.1⟩
  · rw [if_neg h1]
    by_cases h2 : [a, o, t].any (bad (fun e => validFilemode e.mode)) = true
    · left
      rw [if_pos h2]
      obtain ⟨e, he, hb⟩ := hbad _ h2
      exact ⟨rfl, e, he, fun h => by rw [← hv, hb] at h; cases h.2⟩
    · rw [if_neg h2]
      right
      refine ⟨fun e he => ⟨hgood _ h1 e he, (hv _).mp (hgood _ h2 e he)⟩, ?_⟩
      obtain ⟨st0, d1, d2, d3⟩ := dropStage0_ok hi [a, o, t]
      rw [d1]
      simp only [ne_eq, not_true_eq_false, if_false]
      obtain ⟨st', c, g1, g2, g3, g4, g5, g6⟩ := addStages_ok env [a, o, t] 1 st0 d2
      exact ⟨st0, st', c, g1, d2, g2, d3, g3, g4, g5, g6⟩

theorem add_cases (env : Env) {st : St} (hi : Inv st) (e : Entry) :
    (add env st e = .err (-1) ∧ ¬ (StoredMode e.mode ∧ env.pathValid e.path = true ∧ objOk env e)) ∨
    ∃ st', add env st e = .ok st' ∧ Inv st' ∧ (StoredMode e.mode ∧ env.pathValid e.path = true ∧ objOk env e) ∧
      stored e e.stage ∈ st'.entries ∧
      (∀ x ∈ st'.entries, x = stored e e.stage ∨ (x ∈ st.entries ∧ ¬ (x.path = e.path ∧ x.stage = e.stage))) ∧
      (∀ x ∈ st.entries, x ∈ st'.entries ∨ (x.stage = e.stage ∧ (x.path = e.path ∨ Collide e.path x.path))) ∧
      (Consistent st → ∀ x ∈ st'.entries, x.stage = e.stage → x.path ≠ [] → ¬ Under x.path e.path) := by
  have hv : validFilemode e.mode = true ↔ StoredMode e.mode := by simp [validFilemode, StoredMode]
  unfold add
  by_cases h1 : validFilemode e.mode = true
  · rw [if_neg (not_not_intro h1)]
    by_cases h2 : env.pathValid e.path = true
    · rw [if_neg (not_not_intro h2)]
      rcases insert_mem env hi e with ⟨r1, r2⟩ | ⟨st', r1, r2, r3, r4, r5, r6, r7⟩
      · exact .inl ⟨r1, fun h => r2 h.2.2⟩
      · exact .inr ⟨st', r1, r2, ⟨hv.mp h1, h2, r3⟩, r4, r5, r6, r7⟩
    · rw [if_pos h2]
      exact .inl ⟨rfl, fun h => h2 h.2.1⟩
  · rw [if_pos h1]
    exact .inl ⟨rfl, fun h => h1 (hv.mpr h.1)⟩

theorem step_inv (env : Env) {st : St} (hi : Inv st) (op : Op) : ∃ st', step env st op = some st' ∧ Inv st' := by
  cases op with
  | add e =>
    rcases add_cases env hi e with ⟨h, -⟩ | ⟨st', h, h', -⟩
    · exact ⟨st, by simp [step, h, after], hi⟩
    · exact ⟨st', by simp [step, h, after], h'⟩
  | remove p s =>
    rcases remove_ok hi p s with ⟨h, -⟩ | ⟨st', h, h', -⟩
    · exact ⟨st, by simp [step, h, after], hi⟩
    · exact ⟨st', by simp [step, h, after], h'⟩
  | removeDirectory d s =>
    obtain ⟨st', h, h'⟩ := removeDirectory_inv hi d s
    exact ⟨st', by simp [step, h, after], h'⟩
  | clear =>
    obtain ⟨st', h, h', -⟩ := clear_ok st
    exact ⟨st', by simp [step, h, after], h'⟩
  | conflictAdd a o t =>
    rcases conflictAdd_cases env hi a o t with ⟨h, -⟩ | ⟨-, st0, st', c, h, -, h', -⟩
    · exact ⟨st, by simp [step, h], hi⟩
    · exact ⟨st', by simp [step, h], h'⟩
  | conflictRemove p =>
    rcases conflictRemove_ok hi p with ⟨h, -⟩ | ⟨st', h, h', -⟩
    · exact ⟨st, by simp [step, h, after], hi⟩
    · exact ⟨st', by simp [step, h, after], h'⟩
  | conflictCleanup =>
    obtain ⟨st', h, h', -⟩ := conflictCleanup_ok hi
    exact ⟨st', by simp [step, h, after], h'⟩

theorem runOps_inv (env : Env) (ops : List Op) : ∀ st, Inv st → ∃ st', runOps env st ops = some st' ∧ Inv st' := by
  induction ops with
  | nil => intro st hi; exact ⟨st, rfl, hi⟩
  | cons op ops ih =>
    intro st hi
    obtain ⟨st1, h1, h2⟩ := step_inv env hi op
    obtain ⟨st', h3, h4⟩ := ih st1 h2
    exact ⟨st', by rw [runOps, h1]; exact h3, h4⟩

theorem reachable_inv {env : Env} {st : St} (h : Reachable env st) : Inv st := by
  obtain ⟨ops, h⟩ := h
  obtain ⟨st', h1, h2⟩ := runOps_inv env ops init inv_init
  rw [h1] at h; cases h; exact h2

/-! ## C22 -/

/-- **C22 (no failure).** Every history of calls on an empty index runs without undefined behaviour. -/
theorem C22_total (env : Env) (ops : List Op) : ∃ st, runOps env init ops = some st := by
  obtain ⟨st, h, -⟩ := runOps_inv env ops init inv_init
  exact ⟨st, h⟩

/-- **C22 (sorted).** After every history, enumerating the index gives strictly increasing keys (so no key twice). -/
theorem C22_sorted (env : Env) (st : St) (h : Reachable env st) (i j : Nat) (a b : Entry)
    (ha : getByindex st i = some a) (hb : getByindex st j = some b) (hij : i < j) : KeyLt a.path a.stage b.path b.stage := by
  have hi := reachable_inv h
  have hs := hi.sorted
  rw [List.pairwise_iff_getElem] at hs
  obtain ⟨h1, rfl⟩ := List.getElem?_eq_some_iff.mp ha
  obtain ⟨h2, rfl⟩ := List.getElem?_eq_some_iff.mp hb
  have := hs i j h1 h2 hij
  unfold entryCmp at this
  simp only at this
  split at this
  · rename_i h0
    exact .inr ⟨bcmp_zero.mp h0, by omega⟩
  · exact .inl (bcmp_lt.mp this)

/-- **C22 (lookup agrees with enumeration).** After every history, looking up a path and stage finds an entry exactly when the enumeration
contains an entry with that path and stage, and then it is that entry. -/
theorem C22_lookup (env : Env) (st : St) (h : Reachable env st) (p : Bytes) (s : Nat) (e : Entry) :
    getBypath st p s = some e ↔ (∃ n, getByindex st n = some e) ∧ e.path = p ∧ e.stage = s := by
  have hi := reachable_inv h
  unfold getBypath getByindex
  rw [hi.agree, List.mem_iff_getElem?]

theorem get_of_mem {st : St} (hi : Inv st) {x : Entry} : x ∈ st.entries ↔ getBypath st x.path x.stage = some x := by
  unfold getBypath; rw [hi.agree]; simp

theorem get_eq {st st' : St} (hi : Inv st) (hi' : Inv st') {p : Bytes} {s : Nat}
    (h : ∀ x : Entry, x.path = p → x.stage = s → (x ∈ st'.entries ↔ x ∈ st.entries)) : getBypath st' p s = getBypath st p s := by
  unfold getBypath
  cases hm : st.emap p s with
  | none =>
    rw [emap_none hi] at hm
    rw [emap_none hi']
    intro e he hk
    exact hm e ((h e hk.1 hk.2).mp he) hk
  | some e =>
    obtain ⟨h1, h2, h3⟩ := (hi.agree _ _ _).mp hm
    exact (hi'.agree _ _ _).mpr ⟨(h e h2 h3).mpr h1, h2, h3⟩

/-- **C22 (add).** Adding an entry succeeds exactly when its mode is a storable one, its path is valid, and it is a submodule or its object
is acceptable. Then looking it up returns it (with the canonical mode), and every other key keeps its entry, except that keys at
the same stage whose path clashes with the new one (one is a directory of the other) may be removed. When it fails nothing changes. -/
theorem C22_add (env : Env) (st : St) (h : Reachable env st) (e : Entry) :
    (¬ (StoredMode e.mode ∧ env.pathValid e.path = true ∧ (createMode e.mode = 0o160000 ∨ env.objectValid e.id (createMode e.mode) = true)) →
      add env st e = .err (-1)) ∧
    ((StoredMode e.mode ∧ env.pathValid e.path = true ∧ (createMode e.mode = 0o160000 ∨ env.objectValid e.id (createMode e.mode) = true)) →
      ∃ st', add env st e = .ok st' ∧
        getBypath st' e.path e.stage = some { e with mode := createMode e.mode } ∧
        ∀ p s, (p, s) ≠ (e.path, e.stage) → getBypath st' p s = getBypath st p s ∨
          (s = e.stage ∧ Clash p e.path ∧ getBypath st' p s = none)) := by
  have hi := reachable_inv h
  have hobj : objOk env e ↔ (createMode e.mode = 0o160000 ∨ env.objectValid e.id (createMode e.mode) = true) := by
    unfold objOk
    have : createMode e.mode &&& 0o160000 = 0o160000 ↔ createMode e.mode = 0o160000 := by
      unfold createMode
      repeat' split
      all_goals decide
    rw [this]
  rw [← hobj]
  rcases add_cases env hi e with ⟨h1, h2⟩ | ⟨st', h1, h2, h3, h4, h5, h6, -⟩
  · exact ⟨fun _ => h1, fun h => absurd h h2⟩
  · refine ⟨fun h => absurd h3 h, fun _ => ⟨st', h1, ?_, ?_⟩⟩
    · have := (get_of_mem h2).mp h4
      exact this
    · intro p s hps
      by_cases hex : ∃ x ∈ st.entries, x.path = p ∧ x.stage = s ∧ x ∉ st'.entries
      · obtain ⟨x, hx, rfl, rfl, hxn⟩ := hex
        right
        rcases h6 x hx with h | ⟨h, h' | h'⟩
        · exact absurd h hxn
        · exact absurd (by rw [h, h']) hps
        · refine ⟨h, ?_, ?_⟩
          · rcases h' with h' | h'
            · exact .inr h'
            · exact .inl h'
          · unfold getBypath
            rw [emap_none h2]
            intro y hy hk
            rcases h5 y hy with rfl | ⟨hy', -⟩
            · exact hps (by rw [← hk.1, ← hk.2]; rfl)
            · rw [hi.unique hy' hx hk.1 hk.2] at hy
              exact hxn hy
      · left
        apply get_eq hi h2
        intro x hxp hxs
        constructor
        · intro hx
          rcases h5 x hx with rfl | ⟨hx, -⟩
          · exact absurd (by rw [← hxp, ← hxs]; rfl) hps
          · exact hx
        · intro hx
          by_contra hc
          exact hex ⟨x, hx, hxp, hxs, hc⟩

/-- **C22 (remove).** Removing a key succeeds exactly when it is there; afterwards it is gone and every other key is unchanged. -/
theorem C22_remove (env : Env) (st : St) (h : Reachable env st) (p : Bytes) (s : Nat) :
    (getBypath st p s = none ∧ remove st p s = .err ENOTFOUND) ∨
    (getBypath st p s ≠ none ∧ ∃ st', remove st p s = .ok st' ∧ getBypath st' p s = none ∧
      ∀ p' s', (p', s') ≠ (p, s) → getBypath st' p' s' = getBypath st p' s') := by
  have hi := reachable_inv h
  rcases remove_ok hi p s with ⟨h1, h2⟩ | ⟨st', h1, h2, ⟨x, hx, hxp⟩, h4⟩
  · exact .inl ⟨(emap_none hi).mpr h2, h1⟩
  · right
    refine ⟨?_, st', h1, ?_, ?_⟩
    · intro hn
      exact (emap_none hi).mp hn x hx hxp
    · exact (emap_none h2).mpr (fun y hy hk => ((h4 y).mp hy).2 hk)
    · intro p' s' hne
      apply get_eq hi h2
      intro y hyp hys
      rw [h4]
      constructor
      · exact fun h => h.1
      · exact fun h => ⟨h, fun hk => hne (by rw [← hyp, ← hys, hk.1, hk.2])⟩

/-- **C22 (clear).** Clearing leaves an index in which no key is found. -/
theorem C22_clear (st : St) : ∃ st', clear st = .ok st' ∧ (∀ n, getByindex st' n = none) ∧ ∀ p s, getBypath st' p s = none := by
  obtain ⟨st', h1, h2, h3⟩ := clear_ok st
  refine ⟨st', h1, fun n => by simp [getByindex, h3], fun p s => ?_⟩
  exact (emap_none h2).mpr (by rw [h3]; simp)

/-- **C22 (remove a directory).** When no stored path is empty or ends in a slash, removing the directory `d` (no slash at its end, not
empty) at a stage removes exactly the entries below it at that stage. -/
theorem C22_remove_directory (env : Env) (st : St) (h : Reachable env st) (d : Bytes) (s : Nat)
    (hd : d ≠ [] ∧ d.getLast? ≠ some c!"/") (hp : ∀ n x, getByindex st n = some x → x.path.getLast? ≠ some c!"/") :
    ∃ st', removeDirectory st d s = .ok st' ∧ ∀ p t,
      (t = s ∧ Below d p → getBypath st' p t = none) ∧ (¬ (t = s ∧ Below d p) → getBypath st' p t = getBypath st p t) := by
  have hi := reachable_inv h
  have hdp : dirPrefix d = d ++ b!"/" := by unfold dirPrefix; rw [if_pos hd]
  obtain ⟨st', h1, h2, h3⟩ := removeDirectory_ok hi d s (by
    intro x hx hc
    obtain ⟨n, hn⟩ := List.mem_iff_getElem?.mp hx
    apply hp n x hn
    rw [hc, hdp]
    simp)
  have hbelow : ∀ p : Bytes, dirPrefix d <+: p ↔ Below d p := by
    intro p
    rw [hdp]
    constructor
    · rintro ⟨t, rfl⟩; exact ⟨t, by simp⟩
    · rintro ⟨t, rfl⟩; exact ⟨t, by simp⟩
  have hm : ∀ x, x ∈ st'.entries ↔ x ∈ st.entries ∧ ¬ (Below d x.path ∧ x.stage = s) := by
    intro x
    rw [h3, List.mem_filter]
    simp only [hbelow, Bool.not_eq_true', Bool.and_eq_false_iff, decide_eq_false_iff_not, not_and_or]
  refine ⟨st', h1, fun p t => ⟨?_, ?_⟩⟩
  · rintro ⟨rfl, hb⟩
    refine (emap_none h2).mpr ?_
    intro x hx hk
    exact ((hm x).mp hx).2 ⟨by rw [hk.1]; exact hb, hk.2⟩
  · intro hn
    apply get_eq hi h2
    intro x hxp hxs
    rw [hm]
    constructor
    · exact fun h => h.1
    · exact fun h => ⟨h, fun hk => hn ⟨by rw [← hxs]; exact hk.2, by rw [← hxp]; exact hk.1⟩⟩

/-! ## C24 -/

/-- **C24 (get).** A conflict is reported for a path exactly when it has an entry at stage 1, 2 or 3, and the three sides reported are the
entries found at stages 1, 2 and 3. -/
theorem C24_get (env : Env) (st : St) (h : Reachable env st) (p : Bytes) :
    (conflictGet st p = .err ENOTFOUND ∧ ∀ s, 1 ≤ s → s ≤ 3 → getBypath st p s = none) ∨
    (conflictGet st p = .ok ⟨getBypath st p 1, getBypath st p 2, getBypath st p 3⟩ ∧ ∃ s, 1 ≤ s ∧ s ≤ 3 ∧ getBypath st p s ≠ none) := by
  rcases conflictGet_ok (reachable_inv h) p with ⟨h1, h2, h3, h4⟩ | h1
  · left
    refine ⟨h1, fun s a b => ?_⟩
    unfold getBypath
    obtain rfl | rfl | rfl : s = 1 ∨ s = 2 ∨ s = 3 := by omega
    all_goals assumption
  · exact .inr h1

/-- **C24 (add).** Recording a conflict is refused, changing nothing, exactly when a side has an invalid path or a mode that cannot be
stored. Otherwise it succeeds exactly when every side's object is acceptable, and then every given side is found at its stage,
the paths of the sides have no entry at stage 0 any more, and every other key keeps its entry, except that keys at a side's stage
whose path clashes with that side may be removed. In particular a side that was **not** given keeps whatever was stored at its stage. -/
theorem C24_add (env : Env) (st : St) (h : Reachable env st) (a o t : Option Entry) :
    ((∃ e, some e ∈ [a, o, t] ∧ ¬ (env.pathValid e.path = true ∧ StoredMode e.mode)) → conflictAdd env st a o t = .ok (st, -1)) ∧
    ((∀ e, some e ∈ [a, o, t] → env.pathValid e.path = true ∧ StoredMode e.mode) →
      ∃ st' c, conflictAdd env st a o t = .ok (st', c) ∧ (c = 0 ↔ ∀ e, some e ∈ [a, o, t] → objOk env e) ∧
        (c = 0 →
          (∀ e, a = some e → getBypath st' e.path 1 = some { e with stage := 1, mode := createMode e.mode }) ∧
          (∀ e, o = some e → getBypath st' e.path 2 = some { e with stage := 2, mode := createMode e.mode }) ∧
          (∀ e, t = some e → getBypath st' e.path 3 = some { e with stage := 3, mode := createMode e.mode }) ∧
          (∀ e, some e ∈ [a, o, t] → getBypath st' e.path 0 = none)) ∧
        (∀ p s, getBypath st' p s = getBypath st p s ∨ ∃ i e, [a, o, t][i]? = some (some e) ∧
          ((s = 0 ∧ e.path = p) ∨ (s = i + 1 ∧ (p = e.path ∨ (Clash p e.path ∧ getBypath st' p s = none)))))) := by
  have hi := reachable_inv h
  rcases conflictAdd_cases env hi a o t with ⟨h1, e, he, hne⟩ | ⟨hall, st0, st', c, h1, h2, h3, h4, h5, h6, h7, h8⟩
  · refine ⟨fun _ => h1, fun hall => absurd (hall e he) hne⟩
  · refine ⟨fun ⟨e, he, hne⟩ => absurd (hall e he) hne, fun _ => ⟨st', c, h1, h5, ?_, ?_⟩⟩
    · intro hc
      have hst := h6 hc
      refine ⟨?_, ?_, ?_, ?_⟩
      · rintro e rfl
        have := hst 0 e rfl
        exact (get_of_mem h3).mp this
      · rintro e rfl
        have := hst 1 e rfl
        exact (get_of_mem h3).mp this
      · rintro e rfl
        have := hst 2 e rfl
        exact (get_of_mem h3).mp this
      · intro e he
        unfold getBypath
        rw [emap_none h3]
        intro x hx hk
        rcases h7 x hx with ⟨i, y, -, rfl⟩ | hx
        · have : (stored y (1 + i)).stage = 1 + i := rfl
          omega
        · exact ((h4 x).mp hx).2 ⟨hk.2, e, he, hk.1.symm⟩
    · intro p s
      by_cases hgiven : ∃ i e, [a, o, t][i]? = some (some e) ∧ ((s = 0 ∧ e.path = p) ∨ (s = i + 1 ∧ p = e.path))
      · obtain ⟨i, e, g1, g2 | g2⟩ := hgiven
        · exact .inr ⟨i, e, g1, .inl g2⟩
        · exact .inr ⟨i, e, g1, .inr ⟨g2.1, .inl g2.2⟩⟩
      · by_cases hex : ∃ x ∈ st.entries, x.path = p ∧ x.stage = s ∧ x ∉ st'.entries
        · obtain ⟨x, hx, rfl, rfl, hxn⟩ := hex
          have hx0 : x ∈ st0.entries := by
            rw [h4]
            refine ⟨hx, ?_⟩
            rintro ⟨hs, e, he, hep⟩
            obtain ⟨i, hi⟩ := List.mem_iff_getElem?.mp he
            exact hgiven ⟨i, e, hi, .inl ⟨hs, hep⟩⟩
          rcases h8 x hx0 with hh | ⟨i, e, g1, g2, g3⟩
          · exact absurd hh hxn
          · right
            refine ⟨i, e, g1, .inr ⟨by omega, .inr ⟨?_, ?_⟩⟩⟩
            · rcases g3 with g3 | g3 | g3
              · exact absurd ⟨i, e, g1, .inr ⟨by omega, g3⟩⟩ hgiven
              · exact .inr g3
              · exact .inl g3
            · unfold getBypath
              rw [emap_none h3]
              intro y hy hk
              rcases h7 y hy with ⟨j, e', g4, rfl⟩ | hy'
              · exact hgiven ⟨j, e', g4, .inr ⟨by have := hk.2; simp only [stored] at this; omega, hk.1.symm⟩⟩
              · rw [hi.unique ((h4 y).mp hy').1 hx hk.1 hk.2] at hy
                exact hxn hy
        · left
          apply get_eq hi h3
          intro x hxp hxs
          constructor
          · intro hx
            rcases h7 x hx with ⟨j, e', g4, rfl⟩ | hx
            · exact absurd ⟨j, e', g4, .inr ⟨by simp only [stored] at hxs; omega, hxp.symm⟩⟩ hgiven
            · exact ((h4 x).mp hx).1
          · intro hx
            by_contra hc
            exact hex ⟨x, hx, hxp, hxs, hc⟩

/-- **C24 (add, then get).** After a conflict with all three sides for one path was recorded, reading the conflict of that path returns
exactly these three entries with their stages. -/
theorem C24_add_get (env : Env) (st : St) (h : Reachable env st) (a o t : Entry) (p : Bytes)
    (hp : a.path = p ∧ o.path = p ∧ t.path = p)
    (hok : ∀ e ∈ [a, o, t], env.pathValid e.path = true ∧ StoredMode e.mode ∧ objOk env e) :
    ∃ st', conflictAdd env st (some a) (some o) (some t) = .ok (st', 0) ∧
      conflictGet st' p = .ok ⟨some { a with stage := 1, mode := createMode a.mode }, some { o with stage := 2, mode := createMode o.mode },
        some { t with stage := 3, mode := createMode t.mode }⟩ := by
  have hm : ∀ e, some e ∈ [some a, some o, some t] → e ∈ [a, o, t] := by simp
  obtain ⟨st', c, g1, g2, g3, -⟩ := (C24_add env st h (some a) (some o) (some t)).2 (fun e he => ⟨(hok e (hm e he)).1, (hok e (hm e he)).2.1⟩)
  have hc : c = 0 := g2.mpr (fun e he => (hok e (hm e he)).2.2)
  subst hc
  obtain ⟨k1, k2, k3, -⟩ := g3 rfl
  refine ⟨st', g1, ?_⟩
  have hr : Reachable env st' := by
    obtain ⟨ops, hops⟩ := h
    refine ⟨ops ++ [.conflictAdd (some a) (some o) (some t)], ?_⟩
    have happ : ∀ (l : List Op) (s : St), runOps env s l = some st →
        runOps env s (l ++ [.conflictAdd (some a) (some o) (some t)]) = some st' := by
      intro l
      induction l with
      | nil =>
        intro s hs
        cases hs
        simp [runOps, step, g1]
      | cons x xs ih =>
        intro s hs
        rw [runOps] at hs
        rw [List.cons_append, runOps]
        cases hx : step env s x with
        | none => rw [hx] at hs; cases hs
        | some s1 => rw [hx] at hs; exact ih s1 hs
    exact happ ops init hops
  have e1 := k1 a rfl
  have e2 := k2 o rfl
  have e3 := k3 t rfl
  rw [hp.1] at e1
  rw [hp.2.1] at e2
  rw [hp.2.2] at e3
  rcases C24_get env st' hr p with ⟨-, hn⟩ | ⟨hg, -⟩
  · have := hn 1 (by omega) (by omega)
    rw [e1] at this; cases this
  · rw [hg, e1, e2, e3]
    simp [hp]

/-- **C24 (remove).** Removing the conflict of a path fails exactly when the path has no entry at any stage; otherwise it removes exactly
the entries of that path at the stages other than 0. -/
theorem C24_remove (env : Env) (st : St) (h : Reachable env st) (p : Bytes) :
    (conflictRemove st p = .err ENOTFOUND ∧ ∀ s, getBypath st p s = none) ∨
    ((∃ s, getBypath st p s ≠ none) ∧ ∃ st', conflictRemove st p = .ok st' ∧ ∀ q s,
      (q = p ∧ s ≠ 0 → getBypath st' q s = none) ∧ (¬ (q = p ∧ s ≠ 0) → getBypath st' q s = getBypath st q s)) := by
  have hi := reachable_inv h
  rcases conflictRemove_ok hi p with ⟨h1, h2⟩ | ⟨st', h1, h2, ⟨x, hx, hxp⟩, h3⟩
  · left
    exact ⟨h1, fun s => (emap_none hi).mpr (fun x hx hk => h2 x hx hk.1)⟩
  · right
    refine ⟨⟨x.stage, fun hn => (emap_none hi).mp hn x hx ⟨hxp, rfl⟩⟩, st', h1, fun q s => ⟨?_, ?_⟩⟩
    · rintro ⟨rfl, hs⟩
      refine (emap_none h2).mpr ?_
      intro y hy hk
      rw [h3, List.mem_filter] at hy
      simp [hk.1, hk.2, hs] at hy
    · intro hn
      apply get_eq hi h2
      intro y hyp hys
      rw [h3, List.mem_filter]
      constructor
      · exact fun h => h.1
      · intro hy
        refine ⟨hy, ?_⟩
        subst hyp; subst hys
        simp only [not_and_or] at hn
        rcases hn with hn | hn
        · simp [hn]
        · simp [Decidable.not_not.mp hn]

/-- **C24 (cleanup).** Cleaning up removes exactly the entries at stages other than 0. -/
theorem C24_cleanup (env : Env) (st : St) (h : Reachable env st) :
    ∃ st', conflictCleanup st = .ok st' ∧ hasConflicts st' = false ∧ (∀ p, getBypath st' p 0 = getBypath st p 0) ∧
      ∀ p s, s ≠ 0 → getBypath st' p s = none := by
  have hi := reachable_inv h
  obtain ⟨st', h1, h2, h3⟩ := conflictCleanup_ok hi
  refine ⟨st', h1, ?_, ?_, ?_⟩
  · unfold hasConflicts
    rw [h3]
    simp
  · intro p
    apply get_eq hi h2
    intro y _ hys
    rw [h3, List.mem_filter]
    simp [hys]
  · intro p s hs
    refine (emap_none h2).mpr ?_
    intro y hy hk
    rw [h3, List.mem_filter] at hy
    simp [hk.2, hs] at hy

/-- **C24 (has_conflicts).** The index reports conflicts exactly when some path has an entry at a stage other than 0. -/
theorem C24_has_conflicts (env : Env) (st : St) (h : Reachable env st) :
    hasConflicts st = true ↔ ∃ p s, s ≠ 0 ∧ getBypath st p s ≠ none := by
  have hi := reachable_inv h
  unfold hasConflicts
  rw [List.any_eq_true]
  constructor
  · rintro ⟨x, hx, hs⟩
    refine ⟨x.path, x.stage, by simp at hs; omega, ?_⟩
    rw [(get_of_mem hi).mp hx]; simp
  · rintro ⟨p, s, hs, hn⟩
    cases hg : getBypath st p s with
    | none => exact absurd hg hn
    | some x =>
      obtain ⟨h1, h2, h3⟩ := (hi.agree _ _ _).mp hg
      exact ⟨x, h1, by simp; omega⟩

/-! ## C51 -/

/-- no stored path is a directory of another at the same stage -/
def NoClash (st : St) : Prop := ∀ p q s, getBypath st p s ≠ none → getBypath st q s ≠ none → ¬ Below p q

theorem noClash_consistent {st : St} (hi : Inv st) : NoClash st ↔ Consistent st := by
  constructor
  · intro h x hx y hy hs
    have h1 := (get_of_mem hi).mp hx
    have h2 := (get_of_mem hi).mp hy
    rw [← hs] at h2
    exact h x.path y.path x.stage (by rw [h1]; simp) (by rw [h2]; simp)
  · intro h p q s hp hq
    cases hp' : getBypath st p s with
    | none => exact absurd hp' hp
    | some x =>
      cases hq' : getBypath st q s with
      | none => exact absurd hq' hq
      | some y =>
        obtain ⟨a1, a2, a3⟩ := (hi.agree _ _ _).mp hp'
        obtain ⟨b1, b2, b3⟩ := (hi.agree _ _ _).mp hq'
        have := h x a1 y b1 (a3.trans b3.symm)
        rwa [a2, b2] at this

/-- **C51, partial.** Adding an entry to an index without clashes removes every file that is a directory of the new path, and if nothing was
stored below the new path the index stays without clashes. Missing: the entries below the new path, see `C51_missed_clash`. -/
theorem C51_no_clash_partial (env : Env) (st : St) (h : Reachable env st) (hc : NoClash st) (e : Entry) (st' : St)
    (hne : getBypath st [] e.stage = none) (ha : add env st e = .ok st') :
    (∀ p, Below p e.path → getBypath st' p e.stage = none) ∧
    ((∀ q, Below e.path q → getBypath st q e.stage = none) → NoClash st') := by
  have hi := reachable_inv h
  rcases add_cases env hi e with ⟨h1, -⟩ | ⟨st2, h1, h2, h3, h4, h5, h6, h7⟩
  · rw [h1] at ha; cases ha
  · rw [h1] at ha; cases ha
    have hcons := (noClash_consistent hi).mp hc
    have hup : ∀ x ∈ st'.entries, x.stage = e.stage → ¬ Under x.path e.path := by
      intro x hx hs
      by_cases h0 : x.path = []
      · rcases h5 x hx with rfl | ⟨hx', -⟩
        · exact not_under_self _
        · rw [show getBypath st [] e.stage = st.emap [] e.stage from rfl, emap_none hi] at hne
          exact absurd ⟨h0, hs⟩ (hne x hx')
      · exact h7 hcons x hx hs h0
    refine ⟨?_, ?_⟩
    · intro p hp
      refine (emap_none h2).mpr ?_
      intro x hx hk
      exact hup x hx hk.2 (by rw [hk.1]; exact hp)
    · intro hno
      rw [noClash_consistent h2]
      intro x hx y hy hs
      rcases h5 x hx with rfl | ⟨hx', -⟩
      · rcases h5 y hy with rfl | ⟨hy', -⟩
        · exact not_under_self _
        · intro hu
          have := hno y.path hu
          rw [show getBypath st y.path e.stage = st.emap y.path e.stage from rfl, emap_none hi] at this
          exact this y hy' ⟨rfl, hs.symm⟩
      · rcases h5 y hy with rfl | ⟨hy', -⟩
        · exact hup x hx hs
        · exact hcons x hx' y hy' hs

/-! ## Examples -/

def anyEnv : Env := ⟨fun _ => true, fun _ _ => true⟩
def file (p : Bytes) (s : Nat := 0) : Entry := ⟨p, s, 0o100644, List.replicate 20 1, []⟩

/-- the paths and stages stored after a history -/
def keysAfter (ops : List Op) : Option (List (Bytes × Nat)) := (runOps anyEnv init ops).map (fun st => st.entries.map (fun e => (e.path, e.stage)))

/-- **C51, the defect.** A history after which the index stores both the file `a` and the file `a/b` at the same stage: `git_index_add`
looks for entries below the new path from position 0 and stops at the first entry that does not begin with it. -/
theorem C51_missed_clash : ∃ st, Reachable anyEnv st ∧ getBypath st b!"a" 0 ≠ none ∧ getBypath st b!"a/b" 0 ≠ none := by
  have h : (runOps anyEnv init [.add (file b!"README"), .add (file b!"a/b"), .add (file b!"a")]).map
      (fun st => ((getBypath st b!"a" 0).isSome, (getBypath st b!"a/b" 0).isSome)) = some (true, true) := by decide +kernel
  obtain ⟨st, h1, h2⟩ := Option.map_eq_some_iff.mp h
  simp only [Prod.mk.injEq] at h2
  refine ⟨st, ⟨_, h1⟩, ?_, ?_⟩
  · intro hn; rw [hn] at h2; cases h2.1
  · intro hn; rw [hn] at h2; cases h2.2

/-- the usual case, in which the directory is replaced -/
example : keysAfter [.add (file b!"a/b"), .add (file b!"a")] = some [(b!"a", 0)] := by decide +kernel

/-- the file is replaced by the directory -/
example : keysAfter [.add (file b!"README"), .add (file b!"a"), .add (file b!"a/b"), .add (file b!"a-")] =
    some [(b!"README", 0), (b!"a-", 0), (b!"a/b", 0)] := by decide +kernel

/-- a conflict over an existing file, a removal and a clean up -/
example : keysAfter [.add (file b!"x"), .add (file b!"y"), .conflictAdd none (some (file b!"x")) (some (file b!"x"))] =
    some [(b!"x", 2), (b!"x", 3), (b!"y", 0)] := by decide +kernel
example : keysAfter [.add (file b!"x"), .add (file b!"y"), .conflictAdd none (some (file b!"x")) (some (file b!"x")), .conflictRemove b!"x"] =
    some [(b!"y", 0)] := by decide +kernel
example : keysAfter [.add (file b!"d/x"), .add (file b!"d0"), .add (file b!"d/y/z"), .removeDirectory b!"d" 0] = some [(b!"d0", 0)] := by decide +kernel

end Verif.Index
