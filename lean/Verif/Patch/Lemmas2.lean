import Verif.Patch.Lemmas
/-! # Applying all hunks -/
namespace Verif.Patch
open Spec

theorem sizet_of {x : Int} {n : Nat} (h : x = n) (hn : n < 2 ^ 64) : sizet x = n := by
  unfold sizet
  omega

theorem applyAll_eq {answers : Nat → Int} (ha : ∀ k, 0 ≤ answers k) (tail : List Bytes) :
    ∀ (parts : List Part) (hs : List Hunk) (o n k : Nat) (st : State) (done : List Bytes), Describes o n parts hs →
      Reads st.image (done ++ oldOf parts tail) → st.skippedNew ≤ n → st.skippedOld ≤ o → done.length + st.skippedNew = n + st.skippedOld →
      o + (oldOf parts tail).length < 2 ^ 31 → n + (newOf parts tail).length < 2 ^ 31 →
      ∃ st' hs', applyAll answers k st hs = .ok (st', hs') ∧ Reads st'.image (done ++ chosenOf (fun k => decide (answers k = 0)) k parts tail) ∧
        Describes o n parts hs' := by
  intro parts
  induction parts with
  | nil =>
    intro hs o n k st done hd hr _ _ _ _ _
    cases hd
    exact ⟨st, [], rfl, hr, .nil⟩
  | cons p ps ih =>
    intro hs o n k st done hd hr h1 h2 h3 h4 h5
    cases hd with
    | @cons _ _ _ _ h hs hsh hol hnl hst hrest =>
      rw [oldOf] at hr h4
      rw [newOf] at h5
      simp only [List.length_append] at h4 h5
      have hk := ha k
      rw [applyAll]
      by_cases hz : answers k = 0
      · rw [hz]
        have hr' : Reads st.image ((done ++ p.gap) ++ before p.pieces ++ oldOf ps tail) := by
          have e : (done ++ p.gap) ++ before p.pieces ++ oldOf ps tail = done ++ (p.gap ++ before p.pieces ++ oldOf ps tail) := by simp [List.append_assoc]
          rw [e]; exact hr
        have hline : min (lineNum st h) ((done ++ p.gap) ++ before p.pieces ++ oldOf ps tail).length = (done ++ p.gap).length := by
          have : lineNum st h = done.length + p.gap.length := by
            unfold lineNum
            rcases hst with hst | ⟨hst, h0⟩
            · rw [if_pos (by omega)]
              exact sizet_of (by rw [hst]; push_cast; omega) (by omega)
            · rw [if_neg (by omega)]
              omega
          rw [this]
          simp only [List.length_append]
          omega
        obtain ⟨im, lines', e, hr2, hsh2⟩ := applyHunk_at hsh hr' hline
        rw [e, Res.bind_ok]
        have hr3 : Reads im ((done ++ p.gap ++ after p.pieces) ++ oldOf ps tail) := hr2
        obtain ⟨st', hs', e', hr4, hd'⟩ := ih hs _ _ (k + 1) { st with image := im } (done ++ p.gap ++ after p.pieces) hrest hr3
          (by dsimp only; omega) (by dsimp only; omega) (by dsimp only; simp only [List.length_append]; omega) (by omega) (by omega)
        rw [e', Res.bind_ok]
        refine ⟨st', { h with lines := lines' } :: hs', rfl, ?_, .cons hsh2 hol hnl hst hd'⟩
        rw [chosenOf, if_pos (by simp [hz])]
        have e3 : done ++ (p.gap ++ after p.pieces ++ chosenOf (fun k => decide (answers k = 0)) (k + 1) ps tail) =
          done ++ p.gap ++ after p.pieces ++ chosenOf (fun k => decide (answers k = 0)) (k + 1) ps tail := by simp [List.append_assoc]
        rw [e3]
        exact hr4
      · have hpos : answers k > 0 := by omega
        unfold applyHunk
        rw [if_pos hpos, Res.bind_ok]
        have hsn : sizet (st.skippedNew + h.newLines) = st.skippedNew + (after p.pieces).length := sizet_of (by rw [hnl]; push_cast; rfl) (by omega)
        have hso : sizet (st.skippedOld + h.oldLines) = st.skippedOld + (before p.pieces).length := sizet_of (by rw [hol]; push_cast; rfl) (by omega)
        dsimp only
        rw [hsn, hso]
        have hr3 : Reads st.image ((done ++ p.gap ++ before p.pieces) ++ oldOf ps tail) := by
          have e : (done ++ p.gap ++ before p.pieces) ++ oldOf ps tail = done ++ (p.gap ++ before p.pieces ++ oldOf ps tail) := by simp [List.append_assoc]
          rw [e]; exact hr
        obtain ⟨st', hs', e', hr4, hd'⟩ := ih hs _ _ (k + 1) { st with skippedNew := st.skippedNew + (after p.pieces).length, skippedOld := st.skippedOld + (before p.pieces).length }
          (done ++ p.gap ++ before p.pieces) hrest hr3 (by dsimp only; omega) (by dsimp only; omega) (by dsimp only; simp only [List.length_append]; omega) (by omega) (by omega)
        rw [e', Res.bind_ok]
        refine ⟨st', h :: hs', rfl, ?_, .cons hsh hol hnl hst hd'⟩
        rw [chosenOf, if_neg (by simp [hz])]
        have e3 : done ++ (p.gap ++ before p.pieces ++ chosenOf (fun k => decide (answers k = 0)) (k + 1) ps tail) =
          done ++ p.gap ++ before p.pieces ++ chosenOf (fun k => decide (answers k = 0)) (k + 1) ps tail := by simp [List.append_assoc]
        rw [e3]
        exact hr4

/-- applying hunks that describe the parts of a file -/
theorem applyHunks_eq {answers : Nat → Int} (ha : ∀ k, 0 ≤ answers k) {parts : List Part} {hs : List Hunk} {tail : List Bytes} {source : Bytes}
    (hd : Describes 0 0 parts hs) (hsrc : Lines (oldOf parts tail) source) (ho : (oldOf parts tail).length < 2 ^ 31) (hn : (newOf parts tail).length < 2 ^ 31) :
    ∃ hs', applyHunks answers source hs = .ok ((chosenOf (fun k => decide (answers k = 0)) 0 parts tail).flatten, hs') ∧ Describes 0 0 parts hs' := by
  obtain ⟨st', hs', e, hr, hd'⟩ := applyAll_eq ha tail parts hs 0 0 0 { image := imageOf source, skippedNew := 0, skippedOld := 0 } [] hd
    (by rw [List.nil_append]; exact imageOf_reads hsrc) (Nat.le_refl _) (Nat.le_refl _) rfl (by omega) (by omega)
  rw [List.nil_append] at hr
  exact ⟨hs', by unfold applyHunks; rw [e, Res.bind_ok, render_eq hr, Res.bind_ok], hd'⟩

theorem chosenOf_all {chosen : Nat → Bool} (h : ∀ k, chosen k = true) : ∀ (parts : List Part) (k : Nat) (tail : List Bytes), chosenOf chosen k parts tail = newOf parts tail := by
  intro parts
  induction parts with
  | nil => intros; rfl
  | cons p ps ih => intro k tail; rw [chosenOf, newOf, if_pos (h k), ih]

end Verif.Patch
