import Verif.CommitGraph.Lemmas3
import Verif.Sort.Props
/-! # Lemmas: the commits to be written, in order, and their parents -/
namespace Verif.CommitGraph
open PackIdx (bind_ok_inv bind_ok bind_err ENOTFOUND)
open Spec Verif.B

theorem commitCmp_order : Sort.Spec.TotalPreorder commitCmp :=
  ⟨fun a b => by unfold commitCmp; rw [bcmp_neg a.id b.id]; omega, fun _ _ _ => bcmp_trans⟩

theorem uniq_head : ∀ (a : Commit) (l : List Commit), ∃ x r, uniq (a :: l) = x :: r ∧ x.id = a.id
  | a, [] => ⟨a, [], rfl, rfl⟩
  | a, b :: r => by
    rw [uniq]
    split
    · rename_i h
      obtain ⟨x, s, h1, h2⟩ := uniq_head b r
      exact ⟨x, s, h1, by rw [h2]; exact (bcmp_zero.mp h).symm⟩
    · exact ⟨a, _, rfl, rfl⟩

theorem uniq_ok : ∀ l : List Commit, Sort.Spec.Sorted commitCmp l → (uniq l).Pairwise (fun a b => a.id < b.id) ∧ (∀ c ∈ uniq l, c ∈ l) ∧
    ∀ c ∈ l, ∃ d ∈ uniq l, d.id = c.id
  | [], _ => ⟨.nil, fun _ h => h, fun _ h => absurd h List.not_mem_nil⟩
  | [a], _ => ⟨by simp [uniq], fun _ h => h, fun c h => ⟨c, h, rfl⟩⟩
  | a :: b :: r, h => by
    unfold Sort.Spec.Sorted at h
    rw [List.pairwise_cons] at h
    obtain ⟨h1, h2, h3⟩ := uniq_ok (b :: r) h.2
    rw [uniq]
    split
    · rename_i h0
      refine ⟨h1, fun c hc => List.mem_cons_of_mem _ (h2 c hc), fun c hc => ?_⟩
      rcases List.mem_cons.mp hc with rfl | hc
      · obtain ⟨d, hd, he⟩ := h3 b (by simp)
        exact ⟨d, hd, by rw [he]; exact (bcmp_zero.mp h0).symm⟩
      · exact h3 c hc
    · rename_i h0
      refine ⟨List.pairwise_cons.mpr ⟨fun d hd => ?_, h1⟩, fun c hc => ?_, fun c hc => ?_⟩
      · have hab : a.id < b.id := bcmp_lt.mp (by have := h.1 b (by simp); unfold commitCmp at this h0; omega)
        rcases List.mem_cons.mp (h2 d hd) with rfl | hdr
        · exact hab
        · have hbd := (List.pairwise_cons.mp h.2).1 d hdr
          exact lt_of_lt_of_le hab (bcmp_le.mp hbd)
      · rcases List.mem_cons.mp hc with rfl | hc
        · simp
        · exact List.mem_cons_of_mem _ (h2 c hc)
      · rcases List.mem_cons.mp hc with rfl | hc
        · exact ⟨c, by simp, rfl⟩
        · obtain ⟨d, hd, he⟩ := h3 c hc
          exact ⟨d, List.mem_cons_of_mem _ hd, he⟩

/-- the commits in order -/
theorem prepare {commits : List Commit} (hlen : commits.length ≤ 2 ^ 47) :
    ∃ l, Sort.tsort commitCmp commits = .ok l ∧ (uniq l).Pairwise (fun a b => a.id < b.id) ∧ (∀ c ∈ uniq l, c ∈ commits) ∧
      (∀ c ∈ commits, ∃ d ∈ uniq l, d.id = c.id) := by
  obtain ⟨l, h1, h2⟩ := Sort.C26_sorts commitCmp_order commits hlen
  obtain ⟨g1, g2, g3⟩ := uniq_ok l h2.sorted
  have hm : ∀ c, c ∈ l ↔ c ∈ commits := fun c => h2.stable.perm.mem_iff
  exact ⟨l, h1, g1, fun c hc => (hm c).mp (g2 c hc), fun c hc => g3 c ((hm c).mpr hc)⟩

theorem sublist_uniq : ∀ l : List Commit, (uniq l).Sublist l
  | [] => .slnil
  | [_] => List.Sublist.refl _
  | a :: b :: r => by
    rw [uniq]
    split
    · exact (sublist_uniq (b :: r)).cons a
    · exact (sublist_uniq (b :: r)).cons₂ a

theorem indexOf_spec (cs : List Commit) (id : Bytes) :
    (indexOf cs id = none ∧ ∀ c ∈ cs, c.id ≠ id) ∨ ∃ i, indexOf cs id = some i ∧ ∃ h : i < cs.length, cs[i].id = id := by
  unfold indexOf
  cases h : cs.findIdx? fun c => decide (c.id = id) with
  | none =>
    rw [List.findIdx?_eq_none_iff] at h
    exact .inl ⟨rfl, fun c hc => by simpa using h c hc⟩
  | some i =>
    obtain ⟨h1, h2, -⟩ := List.findIdx?_eq_some_iff_getElem.mp h
    exact .inr ⟨i, rfl, h1, by simpa using h2⟩

theorem parentIndices_spec (cs : List Commit) : ∀ ps : List Bytes,
    (parentIndices cs ps = .err ENOTFOUND ∧ ∃ p ∈ ps, ∀ c ∈ cs, c.id ≠ p) ∨
    ∃ r, parentIndices cs ps = .ok r ∧ r.length = ps.length ∧ ∀ k (h : k < r.length) (h' : k < ps.length), ∃ h2 : r[k] < cs.length, cs[r[k]].id = ps[k]
  | [] => .inr ⟨[], rfl, rfl, fun k h => absurd h (Nat.not_lt_zero _)⟩
  | p :: ps => by
    rw [parentIndices]
    rcases indexOf_spec cs p with ⟨h1, h2⟩ | ⟨i, h1, h2, h3⟩
    · rw [h1]
      exact .inl ⟨rfl, p, by simp, h2⟩
    · rw [h1]
      dsimp only
      rcases parentIndices_spec cs ps with ⟨g1, q, g2, g3⟩ | ⟨r, g1, g2, g3⟩
      · rw [g1]
        exact .inl ⟨rfl, q, by simp [g2], g3⟩
      · rw [g1]
        refine .inr ⟨i :: r, rfl, by simp [g2], fun k h h' => ?_⟩
        cases k with
        | zero => exact ⟨h2, h3⟩
        | succ k => exact g3 k (by simpa using h) (by simpa using h')

/-- indices of the parents -/
structure IndicesOK (cs : List Commit) (c : Commit) (ps : List Nat) : Prop where
  len : ps.length = c.parents.length
  get : ∀ k (h : k < ps.length) (h' : k < c.parents.length), ∃ h2 : ps[k] < cs.length, cs[ps[k]].id = c.parents[k]

theorem allIndices_spec (cs : List Commit) : ∀ l : List Commit,
    (allIndices cs l = .err ENOTFOUND ∧ ∃ c ∈ l, ∃ p ∈ c.parents, ∀ d ∈ cs, d.id ≠ p) ∨
    ∃ r, allIndices cs l = .ok r ∧ r.length = l.length ∧ ∀ k (h : k < r.length) (h' : k < l.length), IndicesOK cs l[k] r[k]
  | [] => .inr ⟨[], rfl, rfl, fun k h => absurd h (Nat.not_lt_zero _)⟩
  | c :: l => by
    rw [allIndices]
    rcases parentIndices_spec cs c.parents with ⟨h1, p, h2, h3⟩ | ⟨ps, h1, h2, h3⟩
    · rw [h1]
      exact .inl ⟨rfl, c, by simp, p, h2, h3⟩
    · rw [h1, bind_ok]
      rcases allIndices_spec cs l with ⟨g1, d, g2, g3⟩ | ⟨r, g1, g2, g3⟩
      · rw [g1]
        exact .inl ⟨rfl, d, by simp [g2], g3⟩
      · rw [g1]
        refine .inr ⟨ps :: r, rfl, by simp [g2], fun k h h' => ?_⟩
        cases k with
        | zero => exact ⟨h2, h3⟩
        | succ k => exact g3 k (by simpa using h) (by simpa using h')

end Verif.CommitGraph
