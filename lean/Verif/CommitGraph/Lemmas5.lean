import Verif.CommitGraph.Lemmas4
/-! # Lemmas: generation numbers -/
namespace Verif.CommitGraph
open PackIdx (bind_ok_inv bind_ok bind_err ENOTFOUND)

/-- how many more times an index can be pushed -/
def weight : St → Nat
  | .unvisited => 2
  | .added => 1
  | _ => 0

def wsum (st : Nat → St) : Nat → Nat
  | 0 => 0
  | n + 1 => wsum st n + weight (st n)

theorem wsum_congr {st st' : Nat → St} : ∀ {n : Nat}, (∀ j < n, st j = st' j) → wsum st n = wsum st' n
  | 0, _ => rfl
  | n + 1, h => by rw [wsum, wsum, wsum_congr fun j hj => h j (by omega), h n (by omega)]

theorem wsum_set {st : Nat → St} {i : Nat} {x : St} : ∀ {n : Nat}, i < n →
    wsum (fun j => if j = i then x else st j) n + weight (st i) = wsum st n + weight x
  | 0, h => by omega
  | n + 1, h => by
    rw [wsum, wsum]
    by_cases hin : i = n
    · subst hin
      rw [if_pos rfl, wsum_congr (st' := st) fun j hj => if_neg (by omega)]
      omega
    · have := wsum_set (st := st) (x := x) (n := n) (i := i) (by omega)
      rw [if_neg (fun e => hin e.symm)]
      omega

theorem pushParents_ok {n : Nat} : ∀ (L : List Nat) (s : Gen), (∀ x ∈ L, x < n) → ∃ new,
    (pushParents L s).gen = s.gen ∧ (pushParents L s).stack = new ++ s.stack ∧ (∀ x ∈ new, x ∈ L ∧ s.st x = .unvisited) ∧
    (∀ j, (pushParents L s).st j = if s.st j = .unvisited ∧ j ∈ L then .added else s.st j) ∧ (∀ j ∈ L, s.st j = .unvisited → j ∈ new) ∧
    new.length + wsum (pushParents L s).st n = wsum s.st n ∧ new.length ≤ L.length
  | [], s, _ => ⟨[], rfl, rfl, by simp, by simp [pushParents], by simp, by simp [pushParents], by simp⟩
  | p :: L, s, h => by
    rw [pushParents]
    by_cases hp : s.st p = .unvisited
    · rw [if_neg (fun hh => hh hp)]
      obtain ⟨new, h1, h2, h3, h4, h5, h6, h7⟩ := pushParents_ok L { s with st := fun j => if j = p then St.added else s.st j, stack := p :: s.stack }
        fun x hx => h x (by simp [hx])
      refine ⟨new ++ [p], h1, by rw [h2]; simp, ?_, ?_, ?_, ?_, by simp only [List.length_append, List.length_cons, List.length_nil]; omega⟩
      · intro x hx
        rcases List.mem_append.mp hx with hx | hx
        · obtain ⟨g1, g2⟩ := h3 x hx
          dsimp only at g2
          split at g2
          · exact absurd g2 (by decide)
          · exact ⟨by simp [g1], g2⟩
        · have : x = p := by simpa using hx
          subst this
          exact ⟨by simp, hp⟩
      · intro j
        rw [h4 j]
        by_cases hj : j = p
        · subst hj
          simp [hp]
        · simp [hj]
      · intro j hj hu
        rcases List.mem_cons.mp hj with rfl | hj
        · simp
        · by_cases hjp : j = p
          · subst hjp; simp
          · exact List.mem_append.mpr (.inl (h5 j hj (by dsimp only; rw [if_neg hjp]; exact hu)))
      · have hw := wsum_set (st := s.st) (i := p) (x := .added) (n := n) (h p (by simp))
        rw [hp] at hw
        dsimp only [weight] at hw
        dsimp only at h6
        rw [List.length_append, List.length_singleton]
        omega
    · rw [if_pos hp]
      obtain ⟨new, h1, h2, h3, h4, h5, h6, h7⟩ := pushParents_ok L s fun x hx => h x (by simp [hx])
      refine ⟨new, h1, h2, fun x hx => ⟨by simp [(h3 x hx).1], (h3 x hx).2⟩, ?_, ?_, h6, by simp only [List.length_cons]; omega⟩
      · intro j
        rw [h4 j]
        by_cases hj : j = p
        · subst hj
          simp [hp]
        · simp [hj]
      · intro j hj hu
        rcases List.mem_cons.mp hj with rfl | hj
        · exact absurd hu hp
        · exact h5 j hj hu

/-- the parents of an index -/
abbrev par (ps : List (List Nat)) (i : Nat) : List Nat := ps.getD i []

/-- the maximum that is formed -/
theorem foldl_max (g : Nat → Nat) : ∀ (L : List Nat) (a : Nat),
    L.foldl (fun m p => if m < g p then g p else m) a = max a ((L.map g).foldr max 0)
  | [], a => by simp
  | p :: L, a => by
    rw [List.foldl_cons, foldl_max g L, List.map_cons, List.foldr_cons]
    split <;> omega

/-- the cases of a turn: what happens to the index taken from the stack -/
inductive Turn (n : Nat) (ps : List (List Nat)) (i : Nat) (rest : List Nat) (s : Gen) : Gen → Prop where
  | skip : s.st i = .visited → Turn n ps i rest s ⟨s.st, s.gen, rest⟩
  | done (g : Nat) : (s.st i = .expanded ∧ g = min GENMAX (1 + ((par ps i).map s.gen).foldr max 0) ∨ s.st i ≠ .expanded ∧ s.st i ≠ .visited ∧ par ps i = [] ∧ g = 1) →
      Turn n ps i rest s ⟨fun j => if j = i then .visited else s.st j, fun j => if j = i then g else s.gen j, rest⟩
  | expand (new : List Nat) : s.st i = .unvisited ∨ s.st i = .added → par ps i ≠ [] → new.length ≤ (par ps i).length →
      (∀ x ∈ new, x ∈ par ps i ∧ s.st x = .unvisited) → (∀ j ∈ par ps i, s.st j = .unvisited → j ∈ new) →
      new.length + wsum (fun j => if s.st j = .unvisited ∧ j ∈ par ps i then .added else s.st j) n = wsum s.st n →
      Turn n ps i rest s ⟨fun j => if j = i then .expanded else if s.st j = .unvisited ∧ j ∈ par ps i then .added else s.st j, s.gen, new ++ i :: rest⟩

theorem genStep_turn {n : Nat} {ps : List (List Nat)} (hps : ∀ i, ∀ p ∈ par ps i, p < n) (s : Gen) (i : Nat) (rest : List Nat)
    (hg : ∀ j, s.gen j ≤ GENMAX) : Turn n ps i rest s (genStep ps i { s with stack := rest }) := by
  unfold genStep
  dsimp only
  have hpar : ps.getD i [] = par ps i := rfl
  rw [hpar]
  have other : s.st i = .unvisited ∨ s.st i = .added →
      Turn n ps i rest s (if (par ps i).length = 0 then
      { s with gen := fun j => if j = i then 1 else s.gen j, st := fun j => if j = i then .visited else s.st j, stack := rest }
    else
      { st := fun j => if j = i then .expanded else (pushParents (par ps i) { st := s.st, gen := s.gen, stack := i :: rest }).st j,
        gen := (pushParents (par ps i) { st := s.st, gen := s.gen, stack := i :: rest }).gen,
        stack := (pushParents (par ps i) { st := s.st, gen := s.gen, stack := i :: rest }).stack }) := by
    intro h
    split
    · rename_i h0
      exact .done 1 (.inr ⟨by rcases h with h | h <;> rw [h] <;> decide, by rcases h with h | h <;> rw [h] <;> decide, List.length_eq_zero_iff.mp h0, rfl⟩)
    · rename_i h0
      obtain ⟨new, h1, h2, h3, h4, h5, h6, h7⟩ := pushParents_ok (n := n) (par ps i) { st := s.st, gen := s.gen, stack := i :: rest } (hps i)
      have h4' : (pushParents (par ps i) { st := s.st, gen := s.gen, stack := i :: rest }).st =
          fun j => if s.st j = .unvisited ∧ j ∈ par ps i then .added else s.st j := funext h4
      rw [h1, h2, h4']
      rw [h4'] at h6
      exact .expand new h (fun e => h0 (by rw [e]; rfl)) h7 h3 h5 h6
  cases hst : s.st i with
  | visited => exact .skip hst
  | expanded =>
    dsimp only
    rw [foldl_max]
    refine .done _ (.inl ⟨hst, ?_⟩)
    have hle : ∀ L : List Nat, (L.map s.gen).foldr max 0 ≤ GENMAX := by
      intro L
      induction L with
      | nil => exact Nat.zero_le _
      | cons p L ih => rw [List.map_cons, List.foldr_cons]; have := hg p; omega
    have := hle (par ps i)
    split <;> omega
  | unvisited => exact other (.inl hst)
  | added => exact other (.inr hst)

/-- the loop ends, and keeps what each turn keeps -/
theorem genLoop_inv {n : Nat} {ps : List (List Nat)} (I : Gen → Prop) (hps : ∀ i, ∀ p ∈ par ps i, p < n)
    (hg : ∀ s, I s → (∀ j, s.gen j ≤ GENMAX) ∧ ∀ x ∈ s.stack, x < n)
    (hstep : ∀ s i rest s', I s → s.stack = i :: rest → Turn n ps i rest s s' → I s') : ∀ fuel s, I s → s.stack.length + wsum s.st n < fuel →
    ∃ s', genLoop ps fuel s = .ok s' ∧ I s' ∧ s'.stack = []
  | 0, s, _, h => by omega
  | fuel + 1, s, hI, h => by
    rw [genLoop]
    cases hs : s.stack with
    | nil => exact ⟨s, rfl, hI, hs⟩
    | cons i rest =>
      dsimp only
      have ht := genStep_turn hps s i rest (hg s hI).1
      have hI' := hstep s i rest _ hI hs ht
      refine genLoop_inv I hps hg hstep fuel _ hI' ?_
      have hi : i < n := (hg s hI).2 i (by rw [hs]; simp)
      rw [hs, List.length_cons] at h
      generalize genStep ps i { s with stack := rest } = s' at ht
      cases ht with
      | skip _ => dsimp only; omega
      | done g hd =>
        have hw := wsum_set (st := s.st) (i := i) (x := .visited) (n := n) hi
        dsimp only [weight] at hw ⊢
        omega
      | expand new hu _ _ _ _ hw =>
        have hw2 := wsum_set (st := fun j => if s.st j = .unvisited ∧ j ∈ par ps i then St.added else s.st j) (i := i) (x := .expanded) (n := n) hi
        have hpos : 0 < weight (if s.st i = .unvisited ∧ i ∈ par ps i then St.added else s.st i) := by
          split
          · decide
          · rcases hu with h | h <;> rw [h] <;> decide
        dsimp only [weight] at hw2 ⊢
        dsimp only [weight] at hpos
        simp only [List.length_append, List.length_cons]
        omega

theorem wsum_start : ∀ n, wsum (fun _ => St.unvisited) n = 2 * n
  | 0 => rfl
  | n + 1 => by rw [wsum, wsum_start n]; dsimp only [weight]; omega

/-- what holds in any history -/
structure Base (n : Nat) (d : Nat → Nat) (s : Gen) : Prop where
  range : ∀ x ∈ s.stack, x < n
  there : ∀ j < n, s.st j ≠ .visited → j ∈ s.stack
  pos : ∀ j, s.st j = .visited → 1 ≤ s.gen j
  max : ∀ j, s.gen j ≤ GENMAX
  le : ∀ j, s.gen j ≤ d j

theorem foldr_le {g d : Nat → Nat} (h : ∀ j, g j ≤ d j) : ∀ L : List Nat, (L.map g).foldr max 0 ≤ (L.map d).foldr max 0
  | [] => Nat.le_refl _
  | p :: L => by rw [List.map_cons, List.map_cons, List.foldr_cons, List.foldr_cons]; have := h p; have := foldr_le h L; omega

theorem base_step {n : Nat} {ps : List (List Nat)} (hps : ∀ i, ∀ p ∈ par ps i, p < n) {d : Nat → Nat} (hd : ∀ i < n, min GENMAX (1 + ((par ps i).map d).foldr max 0) ≤ d i)
    {s s' : Gen} {i : Nat} {rest : List Nat} (hB : Base n d s) (hs : s.stack = i :: rest) (ht : Turn n ps i rest s s') : Base n d s' := by
  have hi : i < n := hB.range i (by rw [hs]; simp)
  cases ht with
  | skip h =>
    refine ⟨fun x hx => hB.range x (by rw [hs]; exact List.mem_cons_of_mem _ hx), fun j hj hv => ?_, hB.pos, hB.max, hB.le⟩
    have := hB.there j hj hv
    rw [hs] at this
    rcases List.mem_cons.mp this with rfl | h'
    · exact absurd h hv
    · exact h'
  | done g hg =>
    have hgm : 1 ≤ g ∧ g ≤ GENMAX ∧ g ≤ d i := by
      have := hd i hi
      have hG : GENMAX = 0x3FFFFFFF := rfl
      rcases hg with ⟨-, hg⟩ | ⟨-, -, -, hg⟩
      · have := foldr_le hB.le (par ps i)
        omega
      · omega
    refine ⟨fun x hx => hB.range x (by rw [hs]; exact List.mem_cons_of_mem _ hx), fun j hj hv => ?_, fun j hv => ?_, fun j => ?_, fun j => ?_⟩
    · dsimp only at hv
      by_cases hji : j = i
      · rw [if_pos hji] at hv; exact absurd rfl hv
      · rw [if_neg hji] at hv
        have := hB.there j hj hv
        rw [hs] at this
        rcases List.mem_cons.mp this with h' | h'
        · exact absurd h' hji
        · exact h'
    · dsimp only at hv ⊢
      by_cases hji : j = i
      · rw [if_pos hji]; exact hgm.1
      · rw [if_neg hji] at hv ⊢; exact hB.pos j hv
    · dsimp only
      split
      · exact hgm.2.1
      · exact hB.max j
    · dsimp only
      split
      · rename_i h; rw [h]; exact hgm.2.2
      · exact hB.le j
  | expand new hu hne hl h3 h5 hw =>
    refine ⟨fun x hx => ?_, fun j hj hv => ?_, fun j hv => ?_, hB.max, hB.le⟩
    · dsimp only at hx
      rcases List.mem_append.mp hx with hx | hx
      · exact hps i x (h3 x hx).1
      · exact hB.range x (by rw [hs]; exact hx)
    · dsimp only at hv ⊢
      by_cases hji : j = i
      · subst hji; simp
      · rw [if_neg hji] at hv
        refine List.mem_append.mpr (.inr ?_)
        rw [← hs]
        refine hB.there j hj fun h => ?_
        rw [h] at hv
        exact hv (if_neg (by simp))
    · dsimp only at hv ⊢
      by_cases hji : j = i
      · rw [if_pos hji] at hv; cases hv
      · rw [if_neg hji] at hv
        split at hv
        · cases hv
        · exact hB.pos j hv

theorem start_base (n : Nat) (d : Nat → Nat) : Base n d ⟨fun _ => .unvisited, fun _ => 0, (List.range n).reverse⟩ :=
  ⟨fun x hx => by simpa using hx, fun j hj _ => by simpa using hj, (fun j h => nomatch h), fun _ => Nat.zero_le _, fun _ => Nat.zero_le _⟩

/-- in any history the loop ends with generations between one and the depth -/
theorem generations_ok {n : Nat} {ps : List (List Nat)} (hps : ∀ i, ∀ p ∈ par ps i, p < n) {d : Nat → Nat}
    (hd : ∀ i < n, min GENMAX (1 + ((par ps i).map d).foldr max 0) ≤ d i) :
    ∃ gs, generations n ps = .ok gs ∧ gs.length = n ∧ ∀ i (h : i < gs.length), 1 ≤ gs[i] ∧ gs[i] ≤ GENMAX ∧ gs[i] ≤ d i := by
  obtain ⟨s', h1, h2, h3⟩ := genLoop_inv (Base n d) hps (fun s h => ⟨h.max, h.range⟩) (fun s i rest s' hB hs ht => base_step hps hd hB hs ht) (3 * n + 1) _
    (start_base n d) (by rw [wsum_start]; simp; omega)
  unfold generations
  rw [h1]
  refine ⟨_, rfl, by simp, fun i hi => ?_⟩
  rw [List.length_map, List.length_range] at hi
  rw [List.getElem_map, List.getElem_range]
  refine ⟨h2.pos i ?_, h2.max i, h2.le i⟩
  apply Classical.byContradiction
  intro hv
  have := h2.there i hi hv
  rw [h3] at this
  exact absurd this List.not_mem_nil

end Verif.CommitGraph
