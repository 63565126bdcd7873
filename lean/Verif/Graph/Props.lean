import Verif.Graph.Lemmas4
import Verif.Graph.Compute
/-! # C28: merge bases; C30: ahead, behind and descendants -/
namespace Verif.Graph

/-- the best common ancestors: a common ancestor that is not a proper ancestor of another one -/
def Best (g : Repo) (one : Nat) (twos : List Nat) (x : Nat) : Prop := Common g one twos x ∧ ∀ y, Common g one twos y → ¬Proper g y x

/-- the results that are not stale cover all common ancestors -/
theorem kept_cover {g : Repo} (hac : Acyclic g) {one : Nat} {twos : List Nat} {s : State} (hi : Inv g one twos s) (hs : AllStale s) {x : Nat} (hx : Common g one twos x) :
    ∃ r ∈ s.res.filter (fun c => !(s.fl c).stale), Reaches g r x := by
  obtain ⟨r, hr, hrx⟩ := covered hi hs hx
  obtain ⟨m, hm, hmr, hmax⟩ := exists_maximal hac hr
  refine ⟨m, ?_, hmr.trans hrx⟩
  rw [List.mem_filter]
  refine ⟨hm, ?_⟩
  by_cases hst : (s.fl m).stale = true
  · obtain ⟨_, _, z, hz, hzp⟩ := hi.stale m hst
    exact absurd hzp (hmax z hz)
  · simpa using hst

theorem best_of {g : Repo} (hac : Acyclic g) {one : Nat} {twos : List Nat} {l : List Nat} (h1 : ∀ x ∈ l, Common g one twos x)
    (h2 : ∀ x, Common g one twos x → ∃ r ∈ l, Reaches g r x) (h3 : ∀ x ∈ l, ∀ y ∈ l, ¬Proper g y x) : ∀ x, x ∈ l ↔ Best g one twos x := by
  intro x
  constructor
  · intro hx
    refine ⟨h1 x hx, ?_⟩
    intro y hy hp
    obtain ⟨r, hr, hry⟩ := h2 y hy
    exact h3 x hx r hr (hry.trans_proper hp)
  · rintro ⟨hc, hmax⟩
    obtain ⟨r, hr, hrx⟩ := h2 x hc
    by_cases h : r = x
    · rw [← h]; exact hr
    · exact absurd (hrx.proper_of_ne h) (hmax r (h1 r hr))

theorem basesMany_ok {g : Repo} (hcl : Closed g) (hac : Acyclic g) {one : Nat} {twos : List Nat} (h1 : one < g.n) (h2 : ∀ t ∈ twos, t < g.n) :
    (basesMany g one twos = .err (-1) ∧ Unreadable g one twos) ∨
    ∃ l, basesMany g one twos = .ok l ∧ l.Nodup ∧ ByDate g l ∧ ∀ x, x ∈ l ↔ Best g one twos x := by
  unfold basesMany
  by_cases ht : twos = []
  · rw [if_pos ht]
    refine .inr ⟨[], rfl, List.nodup_nil, List.Pairwise.nil, ?_⟩
    intro x
    refine ⟨fun h => (by cases h), ?_⟩
    rintro ⟨⟨_, t, ht', _⟩, _⟩
    rw [ht] at ht'; cases ht'
  rw [if_neg ht]
  by_cases hm : one ∈ twos
  · rw [if_pos hm]
    refine .inr ⟨[one], rfl, (by simp), List.pairwise_singleton _ _, ?_⟩
    refine best_of hac ?_ ?_ ?_
    · intro x hx
      rw [List.mem_singleton] at hx
      subst hx
      exact ⟨.refl x, x, hm, .refl x⟩
    · intro x hx
      exact ⟨one, by simp, hx.1⟩
    · intro x hx y hy
      rw [List.mem_singleton] at hx hy
      subst hx hy
      exact hac _
  rw [if_neg hm]
  cases hp : g.parents one with
  | none => exact .inl ⟨rfl, one, .inl (.refl one), hp⟩
  | some ps =>
    simp only
    rcases paintDown_ok hcl h1 h2 ⟨ps, hp⟩ with ⟨k1, k2⟩ | ⟨s, k1, k2, k3⟩
    · left; rw [k1]; exact ⟨rfl, k2⟩
    rw [k1, Res.bind_ok]
    obtain ⟨f1, f2⟩ := fold_by_date g (s.res.filter fun c => !(s.fl c).stale) [] List.Pairwise.nil
    rw [List.append_nil] at f1
    generalize hres : (s.res.filter fun c => !(s.fl c).stale).foldl (fun l c => insertByDate g c l) [] = result at f1 f2 ⊢
    have hin : ∀ x, x ∈ result → x ∈ s.res := fun x hx => (List.mem_filter.1 (f1.mem_iff.1 hx)).1
    have hcommon : ∀ x ∈ result, Common g one twos x := by
      intro x hx
      obtain ⟨b1, b2⟩ := k2.both x (hin x hx)
      exact ⟨k2.p1 x b1, k2.p2 x b2⟩
    have hcover : ∀ x, Common g one twos x → ∃ r ∈ result, Reaches g r x := by
      intro x hx
      obtain ⟨r, hr, hrx⟩ := kept_cover hac k2 k3 hx
      exact ⟨r, f1.mem_iff.2 hr, hrx⟩
    have hnd : result.Nodup := f1.nodup_iff.2 (k2.nodup.filter _)
    by_cases hl : result.length > 1
    · rw [if_pos hl]
      have hclr := clear_both k2
      cases hc1 : clearMarks g [one] s.fl with
      | err e => rw [hc1] at hclr; cases hclr
      | ub => rw [hc1] at hclr; cases hclr
      | ok fl1 =>
        rw [hc1, Res.bind_ok] at hclr
        rw [Res.bind_ok, hclr, Res.bind_ok]
        have hknown : ∀ c ∈ result, c < g.n ∧ ∃ ps, g.parents c = some ps := fun c hc => k2.known c (any_iff.2 (.inl (k2.both c (hin c hc)).1))
        rcases removeRedundant_ok hcl hac hnd (fun c hc => (hknown c hc).1) (fun c hc => (hknown c hc).2) with ⟨r1, c, hc, x, hx, hn⟩ | ⟨l, r1, r2, r3⟩
        · left; rw [r1]
          exact ⟨rfl, x, .inl ((hcommon c hc).1.trans hx), hn⟩
        · right
          rw [r1, Res.bind_ok]
          obtain ⟨e1, e2⟩ := fold_by_date g l [] List.Pairwise.nil
          rw [List.append_nil] at e1
          refine ⟨_, rfl, e1.nodup_iff.2 r2, e2, ?_⟩
          refine best_of hac ?_ ?_ ?_
          · intro x hx; exact hcommon x ((r3 x).1 (e1.mem_iff.1 hx)).1
          · intro x hx
            obtain ⟨r, hr, hrx⟩ := hcover x hx
            obtain ⟨m, hm', hmr, hmax⟩ := exists_maximal hac hr
            exact ⟨m, e1.mem_iff.2 ((r3 m).2 ⟨hm', hmax⟩), hmr.trans hrx⟩
          · intro x hx y hy
            exact ((r3 x).1 (e1.mem_iff.1 hx)).2 y ((r3 y).1 (e1.mem_iff.1 hy)).1
    · rw [if_neg hl]
      refine .inr ⟨result, rfl, hnd, f2, best_of hac hcommon hcover ?_⟩
      intro x hx y hy
      have : x = y := by
        match result, hx, hy, hl with
        | [a], hx, hy, _ => rw [List.mem_singleton] at hx hy; rw [hx, hy]
        | _ :: _ :: _, _, _, hl => simp at hl
      rw [this]; exact hac y

theorem reach_lt {g : Repo} (hcl : Closed g) {a x : Nat} (ha : a < g.n) (h : Reaches g a x) : x < g.n := by
  induction h with
  | refl => exact ha
  | step hps hm _ ih => exact ih (hcl _ _ hps _ hm)

/-- every common ancestor is an ancestor of a best one -/
theorem exists_best {g : Repo} (hcl : Closed g) (hac : Acyclic g) {one : Nat} {twos : List Nat} (h1 : one < g.n) {x : Nat} (hx : Common g one twos x) :
    ∃ m, Best g one twos m ∧ Reaches g m x := by
  classical
  have hmem : ∀ y, y ∈ (List.range g.n).filter (fun y => decide (Common g one twos y)) ↔ Common g one twos y := by
    intro y
    rw [List.mem_filter, List.mem_range, decide_eq_true_eq]
    exact ⟨fun h => h.2, fun h => ⟨reach_lt hcl h1 h.1, h⟩⟩
  obtain ⟨m, hm, hmr, hmax⟩ := exists_maximal hac ((hmem x).2 hx)
  exact ⟨m, ⟨(hmem m).1 hm, fun y hy => hmax y ((hmem y).2 hy)⟩, hmr⟩

/-- **C28, merge bases of several commits**: for every history (and whatever the dates of its commits), `git_merge_bases_many` gives exactly the best
common ancestors of the first commit and any of the others, each once, the newest first; it fails with GIT_ENOTFOUND exactly if there is no common
ancestor, and in no other way if all ancestors can be read. -/
theorem C28_bases_many {g : Repo} (hcl : Closed g) (hac : Acyclic g) {one two : Nat} {rest : List Nat} (h1 : one < g.n) (h2 : ∀ t ∈ two :: rest, t < g.n) :
    (∀ l, mergeBasesMany g (one :: two :: rest) = .ok l → l ≠ [] ∧ l.Nodup ∧ ByDate g l ∧ ∀ x, x ∈ l ↔ Best g one (two :: rest) x) ∧
    (mergeBasesMany g (one :: two :: rest) = .err ENOTFOUND → ∀ x, ¬Common g one (two :: rest) x) ∧
    mergeBasesMany g (one :: two :: rest) ≠ .ub ∧
    ((∀ c ∈ one :: two :: rest, ∀ x, Reaches g c x → (g.parents x).isSome) →
      ((∃ x, Common g one (two :: rest) x) → ∃ l, mergeBasesMany g (one :: two :: rest) = .ok l) ∧
      ((∀ x, ¬Common g one (two :: rest) x) → mergeBasesMany g (one :: two :: rest) = .err ENOTFOUND)) := by
  simp only [mergeBasesMany]
  rcases basesMany_ok hcl hac h1 h2 with ⟨k1, x, k2, k3⟩ | ⟨l, k1, k2, k3, k4⟩
  · rw [k1]
    refine ⟨fun l h => (by cases h), fun h => ?_, fun h => (by cases h), fun h => ?_⟩
    · exact absurd (Res.err.inj h) (by decide)
    · exfalso
      rcases k2 with k2 | ⟨t, ht, k2⟩
      · have := h one (by simp) x k2
        rw [k3] at this; cases this
      · have := h t (List.mem_cons_of_mem _ ht) x k2
        rw [k3] at this; cases this
  · rw [k1]
    cases l with
    | nil =>
      have hno : ∀ x, ¬Common g one (two :: rest) x := by
        intro x hx
        obtain ⟨m, hm, _⟩ := exists_best hcl hac h1 hx
        have := (k4 m).2 hm
        cases this
      exact ⟨fun l h => (by cases h), fun _ => hno, fun h => (by cases h), fun _ => ⟨fun ⟨x, hx⟩ => absurd hx (hno x), fun _ => rfl⟩⟩
    | cons b l =>
      refine ⟨?_, fun h => (by cases h), fun h => (by cases h), fun _ => ⟨fun _ => ⟨_, rfl⟩, fun h => ?_⟩⟩
      · intro l' h
        rw [← Res.ok.inj h]
        exact ⟨by simp, k2, k3, k4⟩
      · exact absurd ((k4 b).1 (by simp)).1 (h b)

theorem mergeBases_eq (g : Repo) (one two : Nat) : mergeBases g one two = mergeBasesMany g [one, two] := rfl

/-- an ancestor of both that is not a proper ancestor of an ancestor of both -/
def BestOf (g : Repo) (one two x : Nat) : Prop := (Reaches g one x ∧ Reaches g two x) ∧ ∀ y, Reaches g one y ∧ Reaches g two y → ¬Proper g y x

theorem common_pair {g : Repo} {one two x : Nat} : Common g one [two] x ↔ Reaches g one x ∧ Reaches g two x := by
  unfold Common
  simp

theorem best_pair {g : Repo} {one two x : Nat} : Best g one [two] x ↔ BestOf g one two x := by
  unfold Best BestOf
  simp only [common_pair]

/-- **C28, merge bases**: the same for two commits and `git_merge_bases`. -/
theorem C28_bases {g : Repo} (hcl : Closed g) (hac : Acyclic g) {one two : Nat} (h1 : one < g.n) (h2 : two < g.n) :
    (∀ l, mergeBases g one two = .ok l → l ≠ [] ∧ l.Nodup ∧ ByDate g l ∧ ∀ x, x ∈ l ↔ BestOf g one two x) ∧
    (mergeBases g one two = .err ENOTFOUND → ∀ x, ¬(Reaches g one x ∧ Reaches g two x)) ∧
    mergeBases g one two ≠ .ub ∧
    ((∀ x, Reaches g one x ∨ Reaches g two x → (g.parents x).isSome) →
      ((∃ x, Reaches g one x ∧ Reaches g two x) → ∃ l, mergeBases g one two = .ok l) ∧
      ((∀ x, ¬(Reaches g one x ∧ Reaches g two x)) → mergeBases g one two = .err ENOTFOUND)) := by
  obtain ⟨k1, k2, k3, k4⟩ := C28_bases_many hcl hac h1 (two := two) (rest := []) (by simpa using h2)
  simp only [common_pair, best_pair, ← mergeBases_eq] at k1 k2 k3 k4
  refine ⟨k1, k2, k3, fun h => k4 ?_⟩
  intro c hc x hx
  simp only [List.mem_cons, List.not_mem_nil, or_false] at hc
  rcases hc with rfl | rfl
  · exact h x (.inl hx)
  · exact h x (.inr hx)

/-- **C28, one merge base**: `git_merge_base` gives a newest best common ancestor. -/
theorem C28_base {g : Repo} (hcl : Closed g) (hac : Acyclic g) {one two : Nat} (h1 : one < g.n) (h2 : two < g.n) :
    (∀ b, mergeBase g one two = .ok b → BestOf g one two b ∧ ∀ y, BestOf g one two y → g.time y ≤ g.time b) ∧
    (mergeBase g one two = .err ENOTFOUND → ∀ x, ¬(Reaches g one x ∧ Reaches g two x)) ∧
    mergeBase g one two ≠ .ub ∧
    ((∀ x, Reaches g one x ∨ Reaches g two x → (g.parents x).isSome) →
      ((∃ x, Reaches g one x ∧ Reaches g two x) → ∃ b, mergeBase g one two = .ok b) ∧
      ((∀ x, ¬(Reaches g one x ∧ Reaches g two x)) → mergeBase g one two = .err ENOTFOUND)) := by
  obtain ⟨k1, k2, k3, k4⟩ := C28_bases hcl hac h1 h2
  unfold mergeBase
  cases hb : mergeBases g one two with
  | ub => exact absurd hb k3
  | err e =>
    rw [hb] at k2 k4
    refine ⟨fun b h => (by cases h), fun h => k2 (by rw [Res.err.inj h]), fun h => (by cases h), fun h => ⟨fun hx => ?_, fun hx => ?_⟩⟩
    · obtain ⟨l, hl⟩ := (k4 h).1 hx; cases hl
    · exact congrArg Res.err (Res.err.inj ((k4 h).2 hx))
  | ok l =>
    obtain ⟨j1, j2, j3, j4⟩ := k1 l hb
    cases l with
    | nil => exact absurd rfl j1
    | cons b l =>
      refine ⟨?_, fun h => (by cases h), fun h => (by cases h), fun _ => ⟨fun _ => ⟨b, rfl⟩, fun h => ?_⟩⟩
      · intro b' h
        rw [← Res.ok.inj h]
        refine ⟨(j4 b).1 (by simp), ?_⟩
        intro y hy
        rcases List.mem_cons.1 ((j4 y).2 hy) with rfl | hm
        · exact Int.le_refl _
        · exact (List.pairwise_cons.1 j3).1 y hm
      · exact absurd ((j4 b).1 (by simp)).1 (h b)

theorem octopusLoop_ok {g : Repo} (hcl : Closed g) (hac : Acyclic g) : ∀ (cs : List Nat) (r : Nat), r < g.n → (∀ c ∈ cs, c < g.n) →
    octopusLoop g r cs ≠ .ub ∧ ∀ b, octopusLoop g r cs = .ok b → Reaches g r b ∧ ∀ c ∈ cs, Reaches g c b
  | [], r, _, _ => ⟨fun h => (by cases h), fun b h => by rw [← Res.ok.inj h]; exact ⟨.refl r, by simp⟩⟩
  | c :: cs, r, hr, hc => by
    rw [octopusLoop]
    obtain ⟨k1, _, k3, _⟩ := C28_base hcl hac hr (hc c (by simp))
    cases hb : mergeBase g r c with
    | ub => exact absurd hb k3
    | err e => exact ⟨fun h => (by cases h), fun b h => (by cases h)⟩
    | ok b =>
      rw [Res.bind_ok]
      have hbb := (k1 b hb).1.1
      obtain ⟨j1, j2⟩ := octopusLoop_ok hcl hac cs b (reach_lt hcl hr hbb.1) (fun x hx => hc x (by simp [hx]))
      refine ⟨j1, fun b' h => ?_⟩
      obtain ⟨e1, e2⟩ := j2 b' h
      refine ⟨hbb.1.trans e1, ?_⟩
      intro x hx
      rcases List.mem_cons.1 hx with rfl | hx
      · exact hbb.2.trans e1
      · exact e2 x hx

/-- **C28, octopus**: what `git_merge_base_octopus` gives is an ancestor of all the commits. -/
theorem C28_octopus {g : Repo} (hcl : Closed g) (hac : Acyclic g) {input : List Nat} (hi : ∀ c ∈ input, c < g.n) :
    octopus g input ≠ .ub ∧ ∀ b, octopus g input = .ok b → ∀ c ∈ input, Reaches g c b := by
  match input, hi with
  | [], _ => exact ⟨fun h => (by cases h), fun b h => (by cases h)⟩
  | [_], _ => exact ⟨fun h => (by cases h), fun b h => (by cases h)⟩
  | one :: two :: rest, hi =>
    obtain ⟨h1, h2⟩ := octopusLoop_ok hcl hac (two :: rest) one (hi one (by simp)) (fun c hc => hi c (List.mem_cons_of_mem _ hc))
    refine ⟨h1, fun b hb c hc => ?_⟩
    obtain ⟨e1, e2⟩ := h2 b hb
    rcases List.mem_cons.1 hc with rfl | hc
    · exact e1
    · exact e2 c hc

/-! ### C30: reachability -/

/-- **C30, reachability**: `git_graph_reachable_from_any` answers yes exactly if the commit is one of the descendants or an ancestor of one; it fails only
if an ancestor cannot be read. -/
theorem C30_reachable {g : Repo} (hcl : Closed g) (hac : Acyclic g) {commit : Nat} {ds : List Nat} (h1 : commit < g.n) (h2 : ∀ d ∈ ds, d < g.n) :
    (∀ r, reachableFromAny g commit ds = .ok r → (r = true ↔ ∃ d ∈ ds, Reaches g d commit)) ∧
    reachableFromAny g commit ds ≠ .ub ∧
    ((∀ c ∈ commit :: ds, ∀ x, Reaches g c x → (g.parents x).isSome) → ∃ r, reachableFromAny g commit ds = .ok r) := by
  unfold reachableFromAny
  by_cases hd : ds = []
  · subst hd
    rw [if_pos rfl]
    exact ⟨fun r h => by rw [← Res.ok.inj h]; simp, fun h => (by cases h), fun _ => ⟨_, rfl⟩⟩
  rw [if_neg hd]
  by_cases hm : commit ∈ ds
  · rw [if_pos hm]
    exact ⟨fun r h => by rw [← Res.ok.inj h]; simp only [true_iff]; exact ⟨commit, hm, .refl _⟩, fun h => (by cases h), fun _ => ⟨_, rfl⟩⟩
  rw [if_neg hm]
  rcases basesMany_ok hcl hac h1 h2 with ⟨k1, x, k2, k3⟩ | ⟨l, k1, k2, k3, k4⟩
  · rw [k1]
    refine ⟨fun r h => (by cases h), fun h => (by cases h), fun h => ?_⟩
    exfalso
    rcases k2 with k2 | ⟨t, ht, k2⟩
    · have := h commit (by simp) x k2
      rw [k3] at this; cases this
    · have := h t (List.mem_cons_of_mem _ ht) x k2
      rw [k3] at this; cases this
  · rw [k1]
    -- if the commit can be reached, it is the only best common ancestor
    have honly : (∃ d ∈ ds, Reaches g d commit) → ∀ x, x ∈ l ↔ x = commit := by
      rintro ⟨d, hdm, hr⟩ x
      have hc : Common g commit ds commit := ⟨.refl _, d, hdm, hr⟩
      rw [k4]
      constructor
      · rintro ⟨hx, hmax⟩
        by_cases e : x = commit
        · exact e
        · exact absurd (hx.1.proper_of_ne (fun h => e h.symm)) (hmax commit hc)
      · rintro rfl
        exact ⟨hc, fun y hy hp => hac _ (hp.trans hy.1)⟩
    cases l with
    | nil =>
      refine ⟨fun r h => ?_, fun h => (by cases h), fun _ => ⟨_, rfl⟩⟩
      rw [← Res.ok.inj h]
      simp only [Bool.false_eq_true, false_iff]
      intro hx
      have := (honly hx commit).2 rfl
      cases this
    | cons b l =>
      refine ⟨fun r h => ?_, fun h => (by cases h), fun _ => ⟨_, rfl⟩⟩
      rw [← Res.ok.inj h, decide_eq_true_eq]
      constructor
      · intro e
        obtain ⟨d, hdm, hr⟩ := ((k4 b).1 (by simp)).1.2
        exact ⟨d, hdm, e ▸ hr⟩
      · intro hx
        exact (honly hx b).1 (by simp)

/-- **C30, descendants**: `git_graph_descendant_of` answers yes exactly if the one commit is a proper ancestor of the other. -/
theorem C30_descendant {g : Repo} (hcl : Closed g) (hac : Acyclic g) {commit ancestor : Nat} (h1 : commit < g.n) (h2 : ancestor < g.n) :
    (∀ r, descendantOf g commit ancestor = .ok r → (r = true ↔ Proper g commit ancestor)) ∧ descendantOf g commit ancestor ≠ .ub ∧
    ((∀ x, Reaches g commit x ∨ Reaches g ancestor x → (g.parents x).isSome) → ∃ r, descendantOf g commit ancestor = .ok r) := by
  unfold descendantOf
  by_cases he : commit = ancestor
  · rw [if_pos he]
    refine ⟨fun r h => ?_, fun h => (by cases h), fun _ => ⟨_, rfl⟩⟩
    rw [← Res.ok.inj h, he]
    simp only [Bool.false_eq_true, false_iff]
    exact hac ancestor
  rw [if_neg he]
  obtain ⟨k1, k2, k3⟩ := C30_reachable hcl hac h2 (ds := [commit]) (by simpa using h1)
  refine ⟨fun r h => ?_, k2, fun h => k3 ?_⟩
  · rw [k1 r h]
    simp only [List.mem_singleton, exists_eq_left]
    exact ⟨fun hr => hr.proper_of_ne he, Proper.reaches⟩
  · intro c hc x hx
    simp only [List.mem_cons, List.not_mem_nil, or_false] at hc
    rcases hc with rfl | rfl
    · exact h x (.inr hx)
    · exact h x (.inl hx)

/-! ### C30: ahead and behind -/

theorem bothFlags {f : Flags} (h : blocked f = true) (hr : f.result = true → f.p1 = true ∧ f.p2 = true) : f.p1 = true ∧ f.p2 = true := by
  unfold blocked at h
  rw [Bool.or_eq_true, Bool.and_eq_true] at h
  rcases h with h | h
  · exact hr h
  · exact h

theorem freeFlags {f : Flags} (h : blocked f = false) : ¬(f.p1 = true ∧ f.p2 = true) := by
  rintro ⟨a, b⟩
  simp [blocked, a, b] at h

/-- **C30, ahead and behind, any history**: the numbers are those of two lists of commits without repetition: the first has all commits that are ancestors
of the first commit but not of the second, and only ancestors of the first; the second likewise. If all ancestors can be read there is no error. -/
theorem C30_bounds {g : Repo} (hcl : Closed g) {one two : Nat} (h1 : one < g.n) (h2 : two < g.n) :
    (∀ ahead behind, aheadBehind g one two = .ok (ahead, behind) → ∃ la lb : List Nat, ahead = la.length ∧ behind = lb.length ∧ la.Nodup ∧ lb.Nodup ∧
      (∀ c ∈ la, Reaches g one c) ∧ (∀ c, Reaches g one c → ¬Reaches g two c → c ∈ la) ∧
      (∀ c ∈ lb, Reaches g two c) ∧ (∀ c, Reaches g two c → ¬Reaches g one c → c ∈ lb) ∧
      (Ordered g → (∀ c ∈ la, ¬Reaches g two c) ∧ ∀ c ∈ lb, ¬Reaches g one c)) ∧
    aheadBehind g one two ≠ .ub ∧
    ((∀ x, Reaches g one x ∨ Reaches g two x → (g.parents x).isSome) → ∃ r, aheadBehind g one two = .ok r) := by
  unfold aheadBehind
  by_cases he : one = two
  · subst he
    have hm : markParents g one one = .ok (upd clean one ⟨true, true, true, false⟩) := by unfold markParents; rw [if_pos rfl]
    rw [hm, Res.bind_ok]
    have hc : countAB g (upd clean one ⟨true, true, true, false⟩) one one = .ok (0, 0) := by
      unfold countAB
      obtain ⟨q, k1, k2, k3, k4⟩ := pushAll_ok [one, one] (PQueue.init false 2 (some (timeCmp g))) rfl rfl
      rw [k1]
      simp only
      have hq : ∀ x ∈ q.contents, x = one := by
        intro x hx; rw [k4.mem_iff] at hx; simpa [PQueue.init] using hx
      have hl : q.contents.length = 2 := by rw [k4.length_eq]; rfl
      have loop : ∀ (k : Nat) (q : PQueue.PQ Nat), q.cmp = some (timeCmp g) → (∀ x ∈ q.contents, x = one) → q.contents.length < k →
          countLoop g k q (upd clean one ⟨true, true, true, false⟩) (0, 0) = .ok (0, 0) := by
        intro k
        induction k with
        | zero => intro q _ _ h; omega
        | succ k ih =>
          intro q hqc hq hl
          rw [countLoop]
          obtain ⟨j1, _, j3⟩ := pop_both hqc
          rcases j3 with ⟨_, j4⟩ | ⟨m, j4, j5, _⟩
          · rw [j4]
          · rw [j4]
            have : m = one := hq m (by rw [j5.mem_iff]; simp)
            subst this
            simp only [upd, if_true, Bool.true_or]
            have hll := j5.length_eq
            rw [List.length_cons] at hll
            exact ih _ j1 (fun x hx => hq x (by rw [j5.mem_iff]; simp [hx])) (by omega)
      exact loop _ q k2 hq (by omega)
    rw [hc]
    refine ⟨?_, fun h => (by cases h), fun _ => ⟨_, rfl⟩⟩
    intro ahead behind h
    have := Res.ok.inj h
    rw [Prod.mk.injEq] at this
    refine ⟨[], [], this.1.symm, this.2.symm, List.nodup_nil, List.nodup_nil, by simp, ?_, by simp, ?_, by simp⟩
    · intro c a b; exact absurd a b
    · intro c a b; exact absurd a b
  · rcases markParents_ok hcl h1 h2 he with ⟨k1, x, k2, k3⟩ | ⟨fl, k1, k2⟩
    · rw [k1]
      refine ⟨fun a b h => (by cases h), fun h => (by cases h), fun h => ?_⟩
      have := h x k2
      rw [k3] at this; cases this
    · rw [k1, Res.bind_ok]
      obtain ⟨V, j1, j2⟩ := countAB_ok hcl k2
      rw [j1]
      refine ⟨?_, fun h => (by cases h), fun _ => ⟨_, rfl⟩⟩
      intro ahead behind h
      have := Res.ok.inj h
      unfold tally at this
      rw [Prod.mk.injEq] at this
      have hfree : ∀ c, (fl c).p1 = true → (fl c).p2 = true → c ∉ V := fun c a b hc => freeFlags (j2.free c hc) ⟨a, b⟩
      have hblk : ∀ c, blocked (fl c) = true → Reaches g one c ∧ Reaches g two c := by
        intro c hc
        obtain ⟨b1, b2⟩ := bothFlags hc (k2.result c)
        exact ⟨k2.p1 c b1, k2.p2 c b2⟩
      refine ⟨V.filter fun c => (fl c).p1, V.filter fun c => !(fl c).p1 && (fl c).p2, this.1.symm, this.2.symm, j2.nodup.filter _, j2.nodup.filter _, ?_, ?_, ?_, ?_, ?_⟩
      · intro c hc; exact k2.p1 c (by simpa using (List.mem_filter.1 hc).2)
      · intro c r1 r2
        have hn : ∀ d, Reaches g one d → Reaches g d c → ¬Reaches g two d := fun d _ b h => r2 (h.trans b)
        have hcV := counted_all j2 (B := fun d => Reaches g two d) (fun d hd => (hblk d hd).2) r1 j2.start1 hn
        rw [List.mem_filter]
        refine ⟨hcV, ?_⟩
        -- painted from the first on the way
        have hpaint : ∀ a, Reaches g a c → a ∈ V → (fl a).p1 = true → (∀ d, Reaches g a d → Reaches g d c → ¬Reaches g two d) → (fl c).p1 = true := by
          intro a ha
          induction ha with
          | refl => intro _ h _; exact h
          | @step a p x ps hps hm hr ih =>
            intro haV h1 hn
            have hset := k2.settled a (by
              have := j2.free a haV
              unfold blocked at this
              rw [Bool.or_eq_false_iff] at this
              exact this.2) (any_iff.2 (.inl h1)) ps hps p hm
            have hpn : ∀ d, Reaches g p d → Reaches g d x → ¬Reaches g two d := fun d a b => hn d (.step hps hm a) b
            have hpV : p ∈ V := by
              rcases j2.closed a haV ps hps p hm with h | h
              · exact h
              · exact absurd (hblk p h).2 (hpn p (.refl p) hr)
            exact ih r1 r2 (by intro d a b; exact fun h => r2 (h.trans b)) hcV hpV (hset.1 h1) hpn
        have hoV : one ∈ V := by
          rcases j2.start1 with h | h
          · exact h
          · exact absurd (hblk one h).2 (hn one (.refl one) r1)
        exact hpaint one r1 hoV k2.start1 hn
      · intro c hc
        have := (List.mem_filter.1 hc).2
        rw [Bool.and_eq_true] at this
        exact k2.p2 c this.2
      · intro c r1 r2
        have hn : ∀ d, Reaches g two d → Reaches g d c → ¬Reaches g one d := fun d _ b h => r2 (h.trans b)
        have hcV := counted_all j2 (B := fun d => Reaches g one d) (fun d hd => (hblk d hd).1) r1 j2.start2 hn
        rw [List.mem_filter]
        refine ⟨hcV, ?_⟩
        have hpaint : ∀ a, Reaches g a c → a ∈ V → (fl a).p2 = true → (∀ d, Reaches g a d → Reaches g d c → ¬Reaches g one d) → (fl c).p2 = true := by
          intro a ha
          induction ha with
          | refl => intro _ h _; exact h
          | @step a p x ps hps hm hr ih =>
            intro haV h1 hn
            have hset := k2.settled a (by
              have := j2.free a haV
              unfold blocked at this
              rw [Bool.or_eq_false_iff] at this
              exact this.2) (any_iff.2 (.inr (.inl h1))) ps hps p hm
            have hpn : ∀ d, Reaches g p d → Reaches g d x → ¬Reaches g one d := fun d a b => hn d (.step hps hm a) b
            have hpV : p ∈ V := by
              rcases j2.closed a haV ps hps p hm with h | h
              · exact h
              · exact absurd (hblk p h).1 (hpn p (.refl p) hr)
            exact ih r1 r2 (by intro d a b; exact fun h => r2 (h.trans b)) hcV hpV (hset.2 h1) hpn
        have hoV : two ∈ V := by
          rcases j2.start2 with h | h
          · exact h
          · exact absurd (hblk two h).1 (hn two (.refl two) r1)
        have hp2 := hpaint two r1 hoV k2.start2 hn
        have hp1 : (fl c).p1 = false := by
          by_cases h : (fl c).p1 = true
          · exact absurd (k2.p1 c h) r2
          · simpa using h
        simp [hp1, hp2]
      · intro hord
        constructor
        · intro c hc r2
          rw [List.mem_filter] at hc
          have e1 : (fl c).p1 = true := by simpa using hc.2
          obtain ⟨a, b⟩ := k2.exact hord c (any_iff.2 (.inl e1)) (k2.p1 c e1) r2
          exact hfree c a b hc.1
        · intro c hc r1
          rw [List.mem_filter, Bool.and_eq_true] at hc
          have e2 : (fl c).p2 = true := by simpa using hc.2.2
          obtain ⟨a, b⟩ := k2.exact hord c (any_iff.2 (.inr (.inl e2))) r1 (k2.p2 c e2)
          exact hfree c a b hc.1

/-- **C30, ahead and behind**: if commits come after their parents (by the generation numbers of the commit graph, or by the dates), then
`git_graph_ahead_behind` gives the number of commits that are ancestors of the first but not of the second, and of the second but not of the first. -/
theorem C30_ahead_behind {g : Repo} (hcl : Closed g) (hord : Ordered g) {one two ahead behind : Nat} (h1 : one < g.n) (h2 : two < g.n)
    (h : aheadBehind g one two = .ok (ahead, behind)) :
    ∃ la lb : List Nat, ahead = la.length ∧ behind = lb.length ∧ la.Nodup ∧ lb.Nodup ∧
      (∀ c, c ∈ la ↔ Reaches g one c ∧ ¬Reaches g two c) ∧ (∀ c, c ∈ lb ↔ Reaches g two c ∧ ¬Reaches g one c) := by
  obtain ⟨la, lb, e1, e2, e3, e4, e5, e6, e7, e8, e9⟩ := (C30_bounds hcl h1 h2).1 ahead behind h
  obtain ⟨f1, f2⟩ := e9 hord
  exact ⟨la, lb, e1, e2, e3, e4, fun c => ⟨fun h => ⟨e5 c h, f1 c h⟩, fun h => e6 c h.1 h.2⟩, fun c => ⟨fun h => ⟨e7 c h, f2 c h⟩, fun h => e8 c h.1 h.2⟩⟩

/-! ### examples -/

/-- a repository given by the parents and the date of each commit -/
def mkRepo (l : List (List Nat × Int)) : Repo := ⟨l.length, fun c => (l[c]?).map (·.1), fun c => (l[c]?).elim 0 (·.2), fun _ => 0⟩

/-- parents have higher numbers -/
def downward (l : List (List Nat × Int)) : Bool := (List.range l.length).all fun c => (((l[c]?).map (·.1)).getD []).all fun p => decide (c < p ∧ p < l.length)

theorem downward_parents {l : List (List Nat × Int)} (h : downward l = true) {c : Nat} {ps : List Nat} (hp : (mkRepo l).parents c = some ps) {p : Nat} (hm : p ∈ ps) :
    c < p ∧ p < l.length := by
  unfold downward at h
  rw [List.all_eq_true] at h
  have hp' : (l[c]?).map (·.1) = some ps := hp
  have hc : c < l.length := by
    cases hl : l[c]? with
    | none => rw [hl] at hp'; cases hp'
    | some x => exact (List.getElem?_eq_some_iff.1 hl).1
  have := h c (List.mem_range.2 hc)
  rw [hp', List.all_eq_true] at this
  simpa using this p hm

theorem downward_closed {l : List (List Nat × Int)} (h : downward l = true) : Closed (mkRepo l) := fun _ _ hp _ hm => (downward_parents h hp hm).2

theorem downward_reaches {l : List (List Nat × Int)} (h : downward l = true) {a b : Nat} (hr : Reaches (mkRepo l) a b) : a ≤ b := by
  induction hr with
  | refl => exact Nat.le_refl _
  | step hp hm _ ih => have := (downward_parents h hp hm).1; omega

theorem downward_acyclic {l : List (List Nat × Int)} (h : downward l = true) : Acyclic (mkRepo l) := by
  rintro c ⟨ps, p, hp, hm, hr⟩
  have := (downward_parents h hp hm).1
  have := downward_reaches h hr
  omega

/-- two branches, each of which was merged into the other: 0 and 1 have the merge bases 2 and 3; dates are wrong on purpose -/
def crissCross : Repo := mkRepo [([2, 3], 20), ([3, 2], 3), ([4], 5), ([4], 6), ([], 8)]

theorem crissCross_ok : Closed crissCross ∧ Acyclic crissCross := ⟨downward_closed (by decide +kernel), downward_acyclic (by decide +kernel)⟩

example : mergeBases crissCross 0 1 = .ok [3, 2] := by rw [mergeBasesC_eq]; decide +kernel
example : BestOf crissCross 0 1 2 := (((C28_bases crissCross_ok.1 crissCross_ok.2 (by decide) (by decide)).1 [3, 2] (by rw [mergeBasesC_eq]; decide +kernel)).2.2.2 2).1 (by simp)

/-- a redundant result: 4 is an ancestor of 2 by way of the very old commit 3, so it is taken for a result as well; `remove_redundant` drops it -/
def skewed : Repo := mkRepo [([2, 4], 20), ([4, 2], 19), ([3], 18), ([4], 1), ([5], 17), ([], 16)]
example : mergeBases skewed 0 1 = .ok [2] := by rw [mergeBasesC_eq]; decide +kernel
example : (match paintDownC skewed clean 0 [1] with | .ok s => s.res.filter (fun c => !(s.fl c).stale) | _ => []) = [4, 2] := by decide +kernel

/-- two separate histories -/
example : mergeBases (mkRepo [([2], 1), ([3], 2), ([], 0), ([], 0)]) 0 1 = .err ENOTFOUND := by rw [mergeBasesC_eq]; decide +kernel

/-- commits after their parents -/
def tidy : Repo := mkRepo [([2], 9), ([3, 2], 8), ([4], 5), ([4], 6), ([], 1)]
example : aheadBehind tidy 0 1 = .ok (1, 2) := by rw [aheadBehindC_eq]; decide +kernel
theorem tidy_ordered : Ordered tidy := by
  refine .inl ⟨fun _ => rfl, ?_⟩
  intro c ps p hp hm
  have hl := downward_parents (l := [([2], 9), ([3, 2], 8), ([4], 5), ([4], 6), ([], 1)]) (by decide +kernel) hp hm
  match c, hp with
  | 0, hp => cases hp; simp only [List.mem_cons, List.not_mem_nil, or_false] at hm; subst hm; decide
  | 1, hp =>
    cases hp; simp only [List.mem_cons, List.not_mem_nil, or_false] at hm
    rcases hm with rfl | rfl <;> decide
  | 2, hp => cases hp; simp only [List.mem_cons, List.not_mem_nil, or_false] at hm; subst hm; decide
  | 3, hp => cases hp; simp only [List.mem_cons, List.not_mem_nil, or_false] at hm; subst hm; decide
  | 4, hp => cases hp; cases hm
  | n + 5, hp => have := hl.1; have := hl.2; simp only [List.length_cons, List.length_nil] at *; omega

/-- six commits made in the same second -/
def sameSecond : Repo := mkRepo [([2, 4], 5), ([2, 5], 5), ([5, 3], 5), ([4], 5), ([5], 5), ([], 5)]

/-- **C30, a defect**: with commits made in the same second (a script, a rebase), `git_graph_ahead_behind` may count commits that are ancestors of both:
here commit 0 is the only ancestor of 0 that is not an ancestor of 1, but two are reported. The painting stops as soon as all commits on the queue are stale,
while commit 4, which was painted from 0 and taken off the queue before commit 2 was found to be common, is not painted from 1 any more. -/
theorem C30_same_second : aheadBehind sameSecond 0 1 = .ok (2, 1) ∧ ∀ c, Reaches sameSecond 0 c → ¬Reaches sameSecond 1 c → c = 0 := by
  refine ⟨by rw [aheadBehindC_eq]; decide +kernel, ?_⟩
  intro c h hn
  have r5 : Reaches sameSecond 1 5 := .step (ps := [2, 5]) (p := 5) rfl (by simp) (.refl 5)
  have r2 : Reaches sameSecond 1 2 := .step (ps := [2, 5]) (p := 2) rfl (by simp) (.refl 2)
  have r4 : Reaches sameSecond 1 4 := r2.trans (.step (ps := [5, 3]) (p := 3) rfl (by simp) (.step (ps := [4]) (p := 4) rfl (by simp) (.refl 4)))
  have r3 : Reaches sameSecond 1 3 := r2.trans (.step (ps := [5, 3]) (p := 3) rfl (by simp) (.refl 3))
  cases h with
  | refl => rfl
  | @step _ p _ ps hp hm hr =>
    cases hp
    simp only [List.mem_cons, List.not_mem_nil, or_false] at hm
    rcases hm with rfl | rfl
    · exact absurd (r2.trans hr) hn
    · exact absurd (r4.trans hr) hn

end Verif.Graph
