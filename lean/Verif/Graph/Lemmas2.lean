import Verif.Graph.Lemmas
/-! # The painting loop: what holds at every turn, and at the end -/
namespace Verif.Graph
open PQueue (PQ Heap)
open PQueue.Spec (Preorder)

/-- a path of marked commits -/
inductive MPath (g : Repo) (fl : Marks) : Nat → Nat → Prop
  | refl (c : Nat) : (fl c).any = true → MPath g fl c c
  | step {c p x : Nat} {ps : List Nat} : (fl c).any = true → g.parents c = some ps → p ∈ ps → MPath g fl p x → MPath g fl c x

theorem any_iff {f : Flags} : f.any = true ↔ f.p1 = true ∨ f.p2 = true ∨ f.result = true ∨ f.stale = true := by
  simp only [Flags.any, Bool.or_eq_true, or_assoc]

theorem MPath.mono {g : Repo} {fl fl' : Marks} (h : ∀ c, (fl c).any = true → (fl' c).any = true) {a b : Nat} (hp : MPath g fl a b) : MPath g fl' a b := by
  induction hp with
  | refl c hc => exact .refl c (h c hc)
  | step hc hp hm _ ih => exact .step (h _ hc) hp hm ih

theorem MPath.snoc {g : Repo} {fl : Marks} {a b x : Nat} {ps : List Nat} (h : MPath g fl a b) (hp : g.parents b = some ps) (hx : x ∈ ps) (hm : (fl x).any = true) :
    MPath g fl a x := by
  induction h with
  | refl c hc => exact .step hc hp hx (.refl x hm)
  | step hc hp' hm' _ ih => exact .step hc hp' hm' (ih hp)

/-- what holds whenever the loop tests its condition -/
structure Inv (g : Repo) (one : Nat) (twos : List Nat) (s : State) : Prop where
  cmp : s.q.cmp = some (generationCmp g)
  cap : s.q.cap = none
  known : ∀ c, (s.fl c).any = true → c < g.n ∧ ∃ ps, g.parents c = some ps
  queued : ∀ c ∈ s.q.contents, (s.fl c).p1 = true ∨ (s.fl c).p2 = true
  start1 : (s.fl one).p1 = true
  start2 : ∀ t ∈ twos, (s.fl t).p2 = true
  p1 : ∀ c, (s.fl c).p1 = true → Reaches g one c
  p2 : ∀ c, (s.fl c).p2 = true → ∃ t ∈ twos, Reaches g t c
  stale : ∀ c, (s.fl c).stale = true → (s.fl c).p1 = true ∧ (s.fl c).p2 = true ∧ ∃ r ∈ s.res, Proper g r c
  result : ∀ c, (s.fl c).result = true ↔ c ∈ s.res
  both : ∀ c ∈ s.res, (s.fl c).p1 = true ∧ (s.fl c).p2 = true
  nodup : s.res.Nodup
  settled : ∀ c, (s.fl c).any = true → c ∉ s.q.contents → ∀ ps, g.parents c = some ps → ∀ p ∈ ps, (s.fl p).has (passed (s.fl c)) = true
  taken : ∀ c, (s.fl c).p1 = true → (s.fl c).p2 = true → (s.fl c).stale = false → c ∉ s.q.contents → (s.fl c).result = true
  chain : ∀ c, (s.fl c).any = true → ∃ r ∈ one :: twos, MPath g s.fl r c

/-- turns that are left -/
def left (g : Repo) (s : State) : Nat := s.q.contents.length + pot g s.fl

theorem or_mono {f F : Flags} : (f.p1 = true → (f.or F).p1 = true) ∧ (f.p2 = true → (f.or F).p2 = true) ∧ (f.stale = true → (f.or F).stale = true) ∧
    (f.result = true → (f.or F).result = true) := by
  simp only [Flags.or, Bool.or_eq_true]
  exact ⟨.inl, .inl, .inl, .inl⟩

theorem has_mono {a a' b : Flags} (h : a.has b = true) (h1 : a.p1 = true → a'.p1 = true) (h2 : a.p2 = true → a'.p2 = true) (h3 : a.stale = true → a'.stale = true)
    (h4 : a.result = true → a'.result = true) : a'.has b = true := by
  rw [has_iff] at h ⊢
  exact ⟨fun x => h1 (h.1 x), fun x => h2 (h.2.1 x), fun x => h4 (h.2.2.1 x), fun x => h3 (h.2.2.2 x)⟩

/-- the marks once the commit that was popped is a result -/
def marked (s : State) (c : Nat) : Marks := if isResult (s.fl c) then upd s.fl c { (s.fl c) with result := true } else s.fl

theorem marked_flags (s : State) (c x : Nat) : (marked s c x).p1 = (s.fl x).p1 ∧ (marked s c x).p2 = (s.fl x).p2 ∧ (marked s c x).stale = (s.fl x).stale ∧
    ((s.fl x).result = true → (marked s c x).result = true) ∧ (x ≠ c → marked s c x = s.fl x) ∧ ((marked s c c).result = true ↔ ((s.fl c).result = true ∨ isResult (s.fl c) = true)) := by
  unfold marked
  by_cases h : isResult (s.fl c) = true
  · rw [if_pos h]
    unfold upd
    by_cases hx : x = c
    · subst hx; simp [h]
    · simp [hx, h]
  · rw [if_neg h]
    simp [h]

theorem marked_pot (g : Repo) (s : State) (c : Nat) : pot g (marked s c) = pot g s.fl := by
  unfold pot
  congr 1
  apply List.map_congr_left
  intro x _
  obtain ⟨h1, h2, h3, _⟩ := marked_flags s c x
  unfold weight
  rw [h1, h2, h3]

theorem visit_eq (g : Repo) (s : State) (c : Nat) (q : PQ Nat) : visit g s c q =
    (paintParents g (passed (s.fl c)) ((g.parents c).getD []) q (marked s c) >>= fun r =>
      .ok ⟨r.1, r.2, if isResult (s.fl c) then c :: s.res else s.res, if (g.parents c).getD [] = [] then c :: s.roots else s.roots⟩) := rfl

/-- one turn -/
theorem visit_inv {g : Repo} (hcl : Closed g) {one : Nat} {twos : List Nat} {s : State} (hi : Inv g one twos s) {c : Nat} {q1 : PQ Nat}
    (hq1 : q1.cmp = some (generationCmp g)) (hq1c : q1.cap = none) (hperm : s.q.contents.Perm (c :: q1.contents)) :
    (visit g s c q1 = .err (-1) ∧ ∃ p ps, (s.fl c).any = true ∧ g.parents c = some ps ∧ p ∈ ps ∧ g.parents p = none) ∨
    ∃ s', visit g s c q1 = .ok s' ∧ Inv g one twos s' ∧ left g s' + 1 ≤ left g s ∧ (∃ added, s'.q.contents.Perm (added ++ q1.contents) ∧
        ∀ a ∈ added, ∃ ps, g.parents c = some ps ∧ a ∈ ps) ∧
      (Preorder (generationCmp g) → Heap (generationCmp g) q1.contents → Heap (generationCmp g) s'.q.contents) ∧
      (∀ x, x ∉ s'.q.contents → s'.fl x = marked s c x) := by
  have hmem : ∀ x, x ∈ s.q.contents ↔ x = c ∨ x ∈ q1.contents := by
    intro x; rw [hperm.mem_iff, List.mem_cons]
  have hcq : c ∈ s.q.contents := (hmem c).2 (.inl rfl)
  have hcany : (s.fl c).any = true := any_iff.2 (by rcases hi.queued c hcq with h | h <;> simp [h])
  obtain ⟨_, ps, hps⟩ := hi.known c hcany
  have hF : (passed (s.fl c)).result = false := rfl
  rw [visit_eq, hps]
  simp only [Option.getD_some]
  rcases paintParents_ok (g := g) hF (cmp := generationCmp g) ps q1 (marked s c) hq1 hq1c (hcl c ps hps) with ⟨h1, p, hp, hn⟩ | ⟨q', fl', added, h1, h2, h3, h4, h5, h6, h7, h8, h9⟩
  · left
    rw [h1]
    exact ⟨rfl, p, ps, hcany, rfl, hp, hn⟩
  right
  rw [h1]
  refine ⟨_, rfl, ?_⟩
  -- flags only grow
  have mono1 : ∀ x, (s.fl x).p1 = true → (fl' x).p1 = true := by
    intro x h
    have h' := (marked_flags s c x).1
    rcases h6 x with e | ⟨_, e⟩ <;> rw [e]
    · rw [h', h]
    · exact or_mono.1 (by rw [h', h])
  have mono2 : ∀ x, (s.fl x).p2 = true → (fl' x).p2 = true := by
    intro x h
    have h' := (marked_flags s c x).2.1
    rcases h6 x with e | ⟨_, e⟩ <;> rw [e]
    · rw [h', h]
    · exact or_mono.2.1 (by rw [h', h])
  have mono3 : ∀ x, (s.fl x).stale = true → (fl' x).stale = true := by
    intro x h
    have h' := (marked_flags s c x).2.2.1
    rcases h6 x with e | ⟨_, e⟩ <;> rw [e]
    · rw [h', h]
    · exact or_mono.2.2.1 (by rw [h', h])
  have mono4 : ∀ x, (s.fl x).result = true → (fl' x).result = true := by
    intro x h
    have h' := (marked_flags s c x).2.2.2.1 h
    rcases h6 x with e | ⟨_, e⟩ <;> rw [e]
    · exact h'
    · exact or_mono.2.2.2 h'
  have monoany : ∀ x, (s.fl x).any = true → (fl' x).any = true := by
    intro x h
    rw [any_iff] at h ⊢
    rcases h with h | h | h | h
    · exact .inl (mono1 x h)
    · exact .inr (.inl (mono2 x h))
    · exact .inr (.inr (.inl (mono4 x h)))
    · exact .inr (.inr (.inr (mono3 x h)))
  have hres : ∀ x, x ∈ s.res → x ∈ (if isResult (s.fl c) = true then c :: s.res else s.res) := by
    intro x hx; split
    · exact List.mem_cons_of_mem _ hx
    · exact hx
  have hmq : ∀ x, x ∈ q'.contents ↔ x ∈ added ∨ x ∈ q1.contents := by
    intro x; rw [h4.mem_iff, List.mem_append]
  have hres' : ∀ x, (fl' x).result = (marked s c x).result := by
    intro x
    rcases h6 x with e | ⟨_, e⟩ <;> rw [e]
    simp only [Flags.or, hF, Bool.or_false]
  -- the commit is a result if it is reached from both sides
  have hcres : (s.fl c).p1 = true → (s.fl c).p2 = true → (s.fl c).stale = false → c ∈ (if isResult (s.fl c) = true then c :: s.res else s.res) := by
    intro a1 a2 a3
    by_cases hr : (s.fl c).result = true
    · exact hres c ((hi.result c).1 hr)
    · rw [if_pos (by simp [isResult, a1, a2, a3, hr])]; simp
  -- what the added ones are
  have hadd : ∀ a ∈ added, (fl' a) = ((marked s c a).or (passed (s.fl c))) ∧ a ∈ ps ∧ ∃ x, g.parents a = some x := fun a ha => ⟨(h8 a ha).2.2, (h8 a ha).1, (h8 a ha).2.1⟩
  have hfl : ∀ x, x ∉ q'.contents → fl' x = marked s c x := by
    intro x hx
    rcases h6 x with e | ⟨m, e⟩
    · exact e
    · exact absurd ((hmq x).2 (.inl m)) hx
  refine ⟨?_, ?_, ⟨added, h4, fun a ha => ⟨ps, rfl, (hadd a ha).2.1⟩⟩, h5, hfl⟩
  rotate_left
  · unfold left
    have := hperm.length_eq
    have h4l := h4.length_eq
    rw [marked_pot] at h9
    simp only [List.length_append, List.length_cons] at this h4l
    simp only
    omega
  constructor
  · exact h2
  · exact h3
  · intro x hx
    rcases h6 x with e | ⟨m, e⟩
    · simp only at hx
      rw [e] at hx
      by_cases hxc : x = c
      · subst hxc; exact hi.known x hcany
      · rw [(marked_flags s c x).2.2.2.2.1 hxc] at hx; exact hi.known x hx
    · obtain ⟨_, k2, k3⟩ := hadd x m
      exact ⟨hcl c ps hps x k2, k3⟩
  · intro x hx
    simp only at hx
    rcases (hmq x).1 hx with h | h
    · simp only
      rw [(hadd x h).1]
      simp only [Flags.or, passed, Bool.or_eq_true]
      rcases hi.queued c hcq with k | k
      · exact .inl (.inr k)
      · exact .inr (.inr k)
    · rcases hi.queued x ((hmem x).2 (.inr h)) with k | k
      · exact .inl (mono1 x k)
      · exact .inr (mono2 x k)
  · exact mono1 one hi.start1
  · intro t ht; exact mono2 t (hi.start2 t ht)
  · intro x hx
    simp only at hx
    rcases h6 x with e | ⟨m, e⟩
    · rw [e, (marked_flags s c x).1] at hx; exact hi.p1 x hx
    · rw [e] at hx
      simp only [Flags.or, passed, Bool.or_eq_true] at hx
      rcases hx with hx | hx
      · rw [(marked_flags s c x).1] at hx; exact hi.p1 x hx
      · exact (hi.p1 c hx).trans (.step hps (hadd x m).2.1 (.refl x))
  · intro x hx
    simp only at hx
    rcases h6 x with e | ⟨m, e⟩
    · rw [e, (marked_flags s c x).2.1] at hx; exact hi.p2 x hx
    · rw [e] at hx
      simp only [Flags.or, passed, Bool.or_eq_true] at hx
      rcases hx with hx | hx
      · rw [(marked_flags s c x).2.1] at hx; exact hi.p2 x hx
      · obtain ⟨t, ht, hr⟩ := hi.p2 c hx
        exact ⟨t, ht, hr.trans (.step hps (hadd x m).2.1 (.refl x))⟩
  · intro x hx
    simp only at hx
    have old : (s.fl x).stale = true → (fl' x).p1 = true ∧ (fl' x).p2 = true ∧ ∃ r ∈ (if isResult (s.fl c) = true then c :: s.res else s.res), Proper g r x := by
      intro h
      obtain ⟨k1, k2, r, hr, k3⟩ := hi.stale x h
      exact ⟨mono1 x k1, mono2 x k2, r, hres r hr, k3⟩
    rcases h6 x with e | ⟨m, e⟩
    · rw [e, (marked_flags s c x).2.2.1] at hx; exact old hx
    · rw [e] at hx
      simp only [Flags.or, passed, Bool.or_eq_true, Bool.and_eq_true] at hx
      rcases hx with hx | hx
      · rw [(marked_flags s c x).2.2.1] at hx; exact old hx
      · have hxp := (hadd x m).2.1
        by_cases hst : (s.fl c).stale = true
        · obtain ⟨k1, k2, r, hr, k3⟩ := hi.stale c hst
          refine ⟨?_, ?_, r, hres r hr, k3.trans (.step hps hxp (.refl x))⟩
          · simp only; rw [e]; simp [Flags.or, passed, k1]
          · simp only; rw [e]; simp [Flags.or, passed, k2]
        · rcases hx with hx | ⟨k1, k2⟩
          · exact absurd hx hst
          · refine ⟨?_, ?_, c, hcres k1 k2 (by simpa using hst), ps, x, hps, hxp, .refl x⟩
            · simp only; rw [e]; simp [Flags.or, passed, k1]
            · simp only; rw [e]; simp [Flags.or, passed, k2]
  · intro x
    simp only
    rw [hres' x]
    by_cases hxc : x = c
    · subst hxc
      rw [(marked_flags s x x).2.2.2.2.2, hi.result x]
      by_cases hr : isResult (s.fl x) = true
      · simp [hr]
      · simp [hr]
    · rw [(marked_flags s c x).2.2.2.2.1 hxc, hi.result x]
      split
      · simp [hxc]
      · rfl
  · intro x hx
    simp only at hx
    by_cases hr : isResult (s.fl c) = true
    · rw [if_pos hr] at hx
      rcases List.mem_cons.1 hx with rfl | hx
      · simp only [isResult, Bool.and_eq_true] at hr
        exact ⟨mono1 x hr.1.1.1, mono2 x hr.1.1.2⟩
      · exact ⟨mono1 x (hi.both x hx).1, mono2 x (hi.both x hx).2⟩
    · rw [if_neg hr] at hx
      exact ⟨mono1 x (hi.both x hx).1, mono2 x (hi.both x hx).2⟩
  · simp only
    by_cases hr : isResult (s.fl c) = true
    · rw [if_pos hr, List.nodup_cons]
      refine ⟨?_, hi.nodup⟩
      intro hm
      have := (hi.result c).2 hm
      simp [isResult, this] at hr
    · rw [if_neg hr]; exact hi.nodup
  · intro x hx hxq ps' hps' p hp
    simp only at hx hxq ⊢
    have hflx := hfl x hxq
    by_cases hxc : x = c
    · subst hxc
      rw [hps] at hps'
      cases hps'
      have : passed (fl' x) = passed (s.fl x) := by
        obtain ⟨k1, k2, k3, _⟩ := marked_flags s x x
        unfold passed; rw [hflx, k1, k2, k3]
      rw [this]
      exact h7 p hp
    · rw [(marked_flags s c x).2.2.2.2.1 hxc] at hflx
      rw [hflx] at hx ⊢
      have hxq' : x ∉ s.q.contents := by
        rw [hmem]; rintro (h | h)
        · exact hxc h
        · exact hxq ((hmq x).2 (.inr h))
      exact has_mono (hi.settled x hx hxq' ps' hps' p hp) (mono1 p) (mono2 p) (mono3 p) (mono4 p)
  · intro x k1 k2 k3 hxq
    simp only at k1 k2 k3 hxq ⊢
    have hflx := hfl x hxq
    obtain ⟨e1, e2, e3, _, e5, e6⟩ := marked_flags s c x
    rw [hflx] at k1 k2 k3 ⊢
    rw [e1] at k1; rw [e2] at k2; rw [e3] at k3
    by_cases hxc : x = c
    · subst hxc
      rw [e6]
      by_cases hr : (s.fl x).result = true
      · exact .inl hr
      · exact .inr (by simp [isResult, k1, k2, k3, hr])
    · rw [e5 hxc]
      refine hi.taken x k1 k2 k3 ?_
      rw [hmem]; rintro (h | h)
      · exact hxc h
      · exact hxq ((hmq x).2 (.inr h))
  · intro x hx
    simp only at hx ⊢
    have old : (s.fl x).any = true → ∃ r ∈ one :: twos, MPath g fl' r x := by
      intro h
      obtain ⟨r, hr, hp⟩ := hi.chain x h
      exact ⟨r, hr, hp.mono monoany⟩
    rcases h6 x with e | ⟨m, e⟩
    · rw [e] at hx
      by_cases hxc : x = c
      · subst hxc; exact old hcany
      · rw [(marked_flags s c x).2.2.2.2.1 hxc] at hx; exact old hx
    · obtain ⟨r, hr, hp⟩ := hi.chain c hcany
      exact ⟨r, hr, (hp.mono monoany).snoc hps (hadd x m).2.1 hx⟩

/-- the loop: whatever is kept by every turn holds at the end -/
theorem loop_inv {g : Repo} (hcl : Closed g) {one : Nat} {twos : List Nat} {I : State → Bool} {P : State → Prop}
    (hP : ∀ s c q1, Inv g one twos s → P s → I s = true → q1.cmp = some (generationCmp g) → s.q.contents.Perm (c :: q1.contents) →
      (Preorder (generationCmp g) → Heap (generationCmp g) s.q.contents → Heap (generationCmp g) q1.contents ∧ ∀ x ∈ q1.contents, generationCmp g c x ≤ 0) →
      ∀ s' added, visit g s c q1 = .ok s' → s'.q.contents.Perm (added ++ q1.contents) → (∀ a ∈ added, ∃ ps, g.parents c = some ps ∧ a ∈ ps) →
      (Preorder (generationCmp g) → Heap (generationCmp g) q1.contents → Heap (generationCmp g) s'.q.contents) →
      (∀ x, x ∉ s'.q.contents → s'.fl x = marked s c x) → P s') :
    ∀ (fuel : Nat) (s : State), Inv g one twos s → P s → left g s < fuel →
    (paintLoop I g fuel s = .err (-1) ∧ ∃ c p ps, (Reaches g one c ∨ ∃ t ∈ twos, Reaches g t c) ∧ g.parents c = some ps ∧ p ∈ ps ∧ g.parents p = none) ∨
    ∃ s', paintLoop I g fuel s = .ok s' ∧ Inv g one twos s' ∧ P s' ∧ (I s' = false ∨ s'.q.contents = [])
  | 0, _, _, _, h => by omega
  | fuel + 1, s, hi, hp, hlt => by
    rw [paintLoop]
    by_cases hI : I s = true
    · rw [if_pos hI]
      obtain ⟨k1, k2, k3⟩ := pop_both hi.cmp
      rcases k3 with ⟨k3, k4⟩ | ⟨c, k3, k4, k5⟩
      · rw [k4]
        exact .inr ⟨s, rfl, hi, hp, .inr k3⟩
      · rw [k3]
        simp only
        rcases visit_inv hcl hi k1 (by rw [k2]; exact hi.cap) k4 with ⟨v1, p, ps, v2, v3, v4, v5⟩ | ⟨s', v1, v2, v3, ⟨added, v4, v5⟩, v6, v7⟩
        · left
          rw [v1]
          refine ⟨rfl, c, p, ps, ?_, v3, v4, v5⟩
          have hcq : c ∈ s.q.contents := by rw [k4.mem_iff]; simp
          rcases hi.queued c hcq with h | h
          · exact .inl (hi.p1 c h)
          · exact .inr (hi.p2 c h)
        · rw [v1, Res.bind_ok]
          exact loop_inv hcl hP fuel s' v2 (hP s c _ hi hp hI k1 k4 k5 s' added v1 v4 v5 v6 v7) (by omega)
    · rw [if_neg hI]
      exact .inr ⟨s, rfl, hi, hp, .inl (by simpa using hI)⟩

/-! ### what the marks say at any time -/

theorem frontier1 {g : Repo} {one : Nat} {twos : List Nat} {s : State} (hi : Inv g one twos s) {a x : Nat} (hr : Reaches g a x) (ha : (s.fl a).p1 = true) :
    (s.fl x).p1 = true ∨ ∃ c ∈ s.q.contents, (s.fl c).p1 = true ∧ Reaches g c x := by
  induction hr with
  | refl => exact .inl ha
  | @step c p x ps hps hm hr ih =>
    by_cases hq : c ∈ s.q.contents
    · exact .inr ⟨c, hq, ha, .step hps hm hr⟩
    · have := hi.settled c (any_iff.2 (.inl ha)) hq ps hps p hm
      rw [has_iff] at this
      exact ih (this.1 ha)

theorem frontier2 {g : Repo} {one : Nat} {twos : List Nat} {s : State} (hi : Inv g one twos s) {a x : Nat} (hr : Reaches g a x) (ha : (s.fl a).p2 = true) :
    (s.fl x).p2 = true ∨ ∃ c ∈ s.q.contents, (s.fl c).p2 = true ∧ Reaches g c x := by
  induction hr with
  | refl => exact .inl ha
  | @step c p x ps hps hm hr ih =>
    by_cases hq : c ∈ s.q.contents
    · exact .inr ⟨c, hq, ha, .step hps hm hr⟩
    · have := hi.settled c (any_iff.2 (.inr (.inl ha))) hq ps hps p hm
      rw [has_iff] at this
      exact ih (this.2.1 ha)

/-- the end of the loop: only stale commits are left -/
def AllStale (s : State) : Prop := ∀ c ∈ s.q.contents, (s.fl c).stale = true

/-- a common ancestor is an ancestor of a result -/
theorem covered {g : Repo} {one : Nat} {twos : List Nat} {s : State} (hi : Inv g one twos s) (hs : AllStale s) {x : Nat} (hx : Common g one twos x) :
    ∃ r ∈ s.res, Reaches g r x := by
  obtain ⟨h1, t, ht, h2⟩ := hx
  have viaq : ∀ c ∈ s.q.contents, Reaches g c x → ∃ r ∈ s.res, Reaches g r x := by
    intro c hc hr
    obtain ⟨_, _, r, hm, hp⟩ := hi.stale c (hs c hc)
    exact ⟨r, hm, hp.reaches.trans hr⟩
  rcases frontier1 hi h1 hi.start1 with k1 | ⟨c, hc, _, hr⟩
  · rcases frontier2 hi h2 (hi.start2 t ht) with k2 | ⟨c, hc, _, hr⟩
    · by_cases hst : (s.fl x).stale = true
      · obtain ⟨_, _, r, hm, hp⟩ := hi.stale x hst
        exact ⟨r, hm, hp.reaches⟩
      · by_cases hq : x ∈ s.q.contents
        · exact absurd (hs x hq) hst
        · exact ⟨x, (hi.result x).1 (hi.taken x k1 k2 (by simpa using hst) hq), .refl x⟩
    · exact viaq c hc hr
  · exact viaq c hc hr

/-- at the end, the first commit is painted from the other side if it is an ancestor of one of the others -/
theorem one_p2 {g : Repo} (hac : Acyclic g) {one : Nat} {twos : List Nat} {s : State} (hi : Inv g one twos s) (hs : AllStale s) :
    (s.fl one).p2 = true ↔ ∃ t ∈ twos, Reaches g t one := by
  refine ⟨hi.p2 one, ?_⟩
  rintro ⟨t, ht, hr⟩
  rcases frontier2 hi hr (hi.start2 t ht) with h | ⟨c, hc, _, h⟩
  · exact h
  · obtain ⟨_, _, r, hm, hp⟩ := hi.stale c (hs c hc)
    have h1 := hi.p1 r (hi.both r hm).1
    exact absurd ((h1.trans_proper hp).trans h) (hac one)

end Verif.Graph
