import Verif.CommitGraph.Lemmas5
/-! # Lemmas: generation numbers of histories without merges -/
namespace Verif.CommitGraph
open PackIdx (bind_ok_inv bind_ok bind_err ENOTFOUND)

/-- what holds if no commit has two parents: the stack below the top holds commits waiting for the one pushed above them -/
structure Lin (n : Nat) (ps : List (List Nat)) (d : Nat → Nat) (s : Gen) : Prop where
  base : Base n d s
  right : ∀ j < n, s.st j = .visited → s.gen j = min GENMAX (d j)
  top : ∀ j, s.st j = .added → s.stack.head? = some j
  waits : ∀ above j below, s.stack = above ++ j :: below → j ∉ above → s.st j = .expanded →
    (∀ p ∈ par ps j, s.st p = .visited ∨ p ∈ above) ∧ ∀ x ∈ above, s.st x = .visited ∨ d x < d j

theorem append_mid {α : Type} {pre a b : List α} {i j : α} {rest : List α} (h : pre ++ i :: rest = a ++ j :: b) :
    (∃ t, pre = a ++ j :: t ∧ b = t ++ i :: rest) ∨ (a = pre ∧ j = i ∧ b = rest) ∨ ∃ t, a = pre ++ i :: t ∧ rest = t ++ j :: b := by
  rcases List.append_eq_append_iff.mp h with ⟨t, h1, h2⟩ | ⟨t, h1, h2⟩
  · cases t with
    | nil =>
      rw [List.nil_append] at h2
      rw [List.append_nil] at h1
      obtain ⟨e1, e2⟩ := List.cons.inj h2
      exact .inr (.inl ⟨h1, e1.symm, e2.symm⟩)
    | cons x t =>
      rw [List.cons_append] at h2
      obtain ⟨e1, e2⟩ := List.cons.inj h2
      exact .inr (.inr ⟨t, by rw [h1, e1], e2⟩)
  · cases t with
    | nil =>
      rw [List.nil_append] at h2
      rw [List.append_nil] at h1
      obtain ⟨e1, e2⟩ := List.cons.inj h2
      exact .inr (.inl ⟨h1.symm, e1, e2⟩)
    | cons x t =>
      rw [List.cons_append] at h2
      obtain ⟨e1, e2⟩ := List.cons.inj h2
      exact .inl ⟨t, by rw [h1, e1], e2⟩

theorem first_occurrence {α : Type} [DecidableEq α] {x : α} : ∀ {l : List α}, x ∈ l → ∃ a b, l = a ++ x :: b ∧ x ∉ a
  | y :: l, h => by
    by_cases hxy : x = y
    · subst hxy; exact ⟨[], l, rfl, by simp⟩
    · obtain ⟨a, b, h1, h2⟩ := first_occurrence (l := l) ((List.mem_cons.mp h).resolve_left hxy)
      exact ⟨y :: a, b, by rw [h1]; rfl, by simp [h2, hxy]⟩

theorem lin_step {n : Nat} {ps : List (List Nat)} (hps : ∀ i, ∀ p ∈ par ps i, p < n) {d : Nat → Nat} (hd : ∀ i < n, d i = 1 + ((par ps i).map d).foldr max 0)
    (hone : ∀ i, (par ps i).length ≤ 1) {s s' : Gen} {i : Nat} {rest : List Nat} (hL : Lin n ps d s) (hs : s.stack = i :: rest) (ht : Turn n ps i rest s s') :
    Lin n ps d s' := by
  have hi : i < n := hL.base.range i (by rw [hs]; simp)
  have hB := base_step hps (fun j hj => by rw [hd j hj]; omega) hL.base hs ht
  have hpar : ∀ j < n, ∀ p ∈ par ps j, d p < d j := by
    intro j hj p hp
    rw [hd j hj]
    have : ∀ L : List Nat, p ∈ L → d p ≤ (L.map d).foldr max 0 := by
      intro L
      induction L with
      | nil => intro h; exact absurd h List.not_mem_nil
      | cons q L ih =>
        intro h
        rw [List.map_cons, List.foldr_cons]
        rcases List.mem_cons.mp h with rfl | h
        · omega
        · have := ih h; omega
    have := this _ hp
    omega
  -- taking away the top
  have htail : ∀ above j below, rest = above ++ j :: below → j ∉ above → j ≠ i → s.st j = .expanded →
      (∀ p ∈ par ps j, s.st p = .visited ∨ p = i ∨ p ∈ above) ∧ ∀ x ∈ above, s.st x = .visited ∨ d x < d j := by
    intro above j below h1 h2 hji h3
    obtain ⟨g1, g2⟩ := hL.waits (i :: above) j below (by rw [hs, h1]; rfl) (by simp [h2, hji]) h3
    refine ⟨fun p hp => ?_, fun x hx => g2 x (by simp [hx])⟩
    rcases g1 p hp with h | h
    · exact .inl h
    · exact .inr (List.mem_cons.mp h)
  cases ht with
  | skip hv =>
    refine ⟨hB, hL.right, fun j hj => ?_, fun above j below h1 h2 h3 => ?_⟩
    · have := hL.top j hj
      rw [hs] at this
      have : i = j := by simpa using this
      subst this
      rw [hv] at hj; cases hj
    · have hji : j ≠ i := by rintro rfl; rw [hv] at h3; cases h3
      obtain ⟨g1, g2⟩ := htail above j below h1 h2 hji h3
      refine ⟨fun p hp => ?_, g2⟩
      rcases g1 p hp with h | h | h
      · exact .inl h
      · rw [h]; exact .inl hv
      · exact .inr h
  | done g hg =>
    have hgd : g = min GENMAX (d i) := by
      rw [hd i hi]
      rcases hg with ⟨hx, hg⟩ | ⟨-, -, hnil, hg⟩
      · obtain ⟨g1, -⟩ := hL.waits [] i rest hs (by simp) hx
        rw [hg]
        match hp : par ps i with
        | [] => rfl
        | [p] =>
          have hpm : p ∈ par ps i := by rw [hp]; simp
          have := hL.right p (hps i p hpm) ((g1 p hpm).resolve_right List.not_mem_nil)
          simp only [List.map_cons, List.map_nil, List.foldr_cons, List.foldr_nil]
          rw [this]
          omega
        | _ :: _ :: _ => have := hone i; rw [hp] at this; simp at this
      · rw [hg, hnil]
        rfl
    refine ⟨hB, fun j hj hv => ?_, fun j hj => ?_, fun above j below h1 h2 h3 => ?_⟩
    · dsimp only at hv ⊢
      by_cases hji : j = i
      · rw [if_pos hji, hji]; exact hgd
      · rw [if_neg hji] at hv ⊢
        exact hL.right j hj hv
    · dsimp only at hj
      by_cases hji : j = i
      · rw [if_pos hji] at hj; cases hj
      · rw [if_neg hji] at hj
        have := hL.top j hj
        rw [hs] at this
        have : i = j := by simpa using this
        exact absurd this.symm hji
    · dsimp only at h1 h3 ⊢
      by_cases hji : j = i
      · rw [if_pos hji] at h3; cases h3
      · rw [if_neg hji] at h3
        obtain ⟨g1, g2⟩ := htail above j below h1 h2 hji h3
        refine ⟨fun p hp => ?_, fun x hx => ?_⟩
        · by_cases hpi : p = i
          · exact .inl (if_pos hpi)
          · rw [if_neg hpi]
            rcases g1 p hp with h | h | h
            · exact .inl h
            · exact absurd h hpi
            · exact .inr h
        · by_cases hxi : x = i
          · exact .inl (if_pos hxi)
          · rw [if_neg hxi]; exact g2 x hx
  | expand new hu hne hl h3 h5 hw =>
    have hnv : s.st i ≠ .visited := by rcases hu with h | h <;> rw [h] <;> decide
    have hne' : s.st i ≠ .expanded := by rcases hu with h | h <;> rw [h] <;> decide
    -- nothing else has been added
    have hadd : ∀ j, j ≠ i → s.st j ≠ .added := by
      intro j hji h
      have := hL.top j h
      rw [hs] at this
      have : i = j := by simpa using this
      exact hji this.symm
    have hnew : new.length ≤ 1 := Nat.le_trans hl (hone i)
    have hnoti : ∀ p ∈ par ps i, p ≠ i := fun p hp e => by have := hpar i hi p hp; rw [e] at this; omega
    refine ⟨hB, fun j hj hv => ?_, fun j hj => ?_, fun above j below h1 h2 h4 => ?_⟩
    · dsimp only at hv ⊢
      by_cases hji : j = i
      · rw [if_pos hji] at hv; cases hv
      · rw [if_neg hji] at hv
        split at hv
        · cases hv
        · exact hL.right j hj hv
    · dsimp only at hj ⊢
      by_cases hji : j = i
      · rw [if_pos hji] at hj; cases hj
      · rw [if_neg hji] at hj
        by_cases hc : s.st j = .unvisited ∧ j ∈ par ps i
        · have hm := h5 j hc.2 hc.1
          match new, hnew, hm with
          | [x], _, hm =>
            have hjx : j = x := by simpa using hm
            rw [hjx]; rfl
          | [], _, hm => exact absurd hm List.not_mem_nil
        · rw [if_neg hc] at hj
          exact absurd hj (hadd j hji)
    · dsimp only at h1 h4 ⊢
      have hstx : ∀ x, s.st x = .visited → (if x = i then St.expanded else if s.st x = .unvisited ∧ x ∈ par ps i then St.added else s.st x) = .visited := by
        intro x hx
        rw [if_neg (by rintro rfl; exact hnv hx), if_neg (by rw [hx]; simp), hx]
      by_cases hji : j = i
      · subst hji
        have hab : above = new := by
          rcases append_mid h1 with ⟨t, e1, -⟩ | ⟨e1, -, -⟩ | ⟨t, e1, -⟩
          · exact absurd rfl (hnoti j (h3 j (by rw [e1]; simp)).1)
          · exact e1
          · exact absurd (by rw [e1]; simp) h2
        subst hab
        refine ⟨fun p hp => ?_, fun x hx => .inr (hpar j hi x (h3 x hx).1)⟩
        cases hsp : s.st p with
        | visited => have hc := hstx p hsp; rw [hsp] at hc; exact .inl hc
        | unvisited => exact .inr (h5 p hp hsp)
        | added => exact absurd hsp (hadd p (hnoti p hp))
        | expanded =>
          exfalso
          have hpn := hps j p hp
          obtain ⟨a, b, e1, e2⟩ := first_occurrence (hL.base.there p hpn (by rw [hsp]; decide))
          have hja : j ∈ a := by
            rw [hs] at e1
            cases a with
            | nil => exact absurd (List.cons.inj e1).1.symm (hnoti p hp)
            | cons y a => rw [(List.cons.inj e1).1]; simp
          rcases (hL.waits a p b e1 e2 hsp).2 j hja with h | h
          · exact hnv h
          · have := hpar j hi p hp; omega
      · rw [if_neg hji] at h4
        have hju : ¬ (s.st j = .unvisited ∧ j ∈ par ps i) := by
          intro h; rw [if_pos h] at h4; cases h4
        rw [if_neg hju] at h4
        rcases append_mid h1 with ⟨t, e1, -⟩ | ⟨-, e1, -⟩ | ⟨t, e1, e2⟩
        · have := (h3 j (by rw [e1]; simp)).2
          rw [h4] at this; cases this
        · exact absurd e1 hji
        · subst e1
          obtain ⟨g1, g2⟩ := hL.waits (i :: t) j below (by rw [hs, e2]; rfl)
            (by intro h; exact h2 (List.mem_append.mpr (.inr h))) h4
          refine ⟨fun p hp => ?_, fun x hx => ?_⟩
          · rcases g1 p hp with h | h
            · exact .inl (hstx p h)
            · exact .inr (List.mem_append.mpr (.inr h))
          · rcases List.mem_append.mp hx with hx | hx
            · have hxi := hpar i hi x (h3 x hx).1
              rcases g2 i (by simp) with h | h
              · exact absurd h hnv
              · exact .inr (by omega)
            · rcases g2 x hx with h | h
              · exact .inl (hstx x h)
              · exact .inr h

/-- without merges the generations are the depths -/
theorem generations_linear {n : Nat} {ps : List (List Nat)} (hps : ∀ i, ∀ p ∈ par ps i, p < n) {d : Nat → Nat}
    (hd : ∀ i < n, d i = 1 + ((par ps i).map d).foldr max 0) (hone : ∀ i, (par ps i).length ≤ 1) :
    ∃ gs, generations n ps = .ok gs ∧ gs.length = n ∧ ∀ i (h : i < gs.length), gs[i] = min GENMAX (d i) := by
  obtain ⟨s', h1, h2, h3⟩ := genLoop_inv (Lin n ps d) hps (fun s h => ⟨h.base.max, h.base.range⟩)
    (fun s i rest s' hB hs ht => lin_step hps hd hone hB hs ht) (3 * n + 1) ⟨fun _ => .unvisited, fun _ => 0, (List.range n).reverse⟩
    ⟨start_base n d, (fun j _ h => nomatch h), (fun j h => nomatch h), (fun a j b _ _ h => nomatch h)⟩ (by rw [wsum_start]; simp; omega)
  unfold generations
  rw [h1]
  refine ⟨_, rfl, by simp, fun i hi => ?_⟩
  rw [List.length_map, List.length_range] at hi
  rw [List.getElem_map, List.getElem_range]
  refine h2.right i hi ?_
  apply Classical.byContradiction
  intro hv
  have := h2.base.there i hi hv
  rw [h3] at this
  exact absurd this List.not_mem_nil

end Verif.CommitGraph
