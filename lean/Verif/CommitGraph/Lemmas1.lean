import Verif.CommitGraph.Spec
import Verif.PackIdx.Lemmas3
/-! # Lemmas: reading commit-graph files -/
namespace Verif.CommitGraph
open PackIdx (bind_ok_inv bind_ok bind_err fanAt fanLoop_ok TableOK find_safe find_right lt_count head_mono lt_of_head)
open PackIdx.Spec Verif.B

/-- what is known about the chunks after the loop -/
theorem chunkLoop_ok {file : Bytes} {trailer : Nat} : ∀ n pos lastOff last cs r, chunkLoop file trailer n pos lastOff last cs = .ok r →
    (∀ k, last ≠ some k → (cs k).off + (cs k).len ≤ lastOff) → (∀ k, last = some k → (cs k).off = lastOff) → (0 < n → last = none ∨ lastOff < trailer) →
    (n = 0 → lastOff ≤ trailer) →
    r.1 ≤ trailer ∧ (∀ k, r.2.1 ≠ some k → (r.2.2 k).off + (r.2.2 k).len ≤ r.1) ∧ (∀ k, r.2.1 = some k → (r.2.2 k).off = r.1) := by
  intro n
  induction n with
  | zero =>
    intro pos lastOff last cs r h h1 h2 h3 h4
    rw [chunkLoop] at h
    have := Res.ok.inj h
    subst this
    exact ⟨h4 rfl, h1, h2⟩
  | succ n ih =>
    intro pos lastOff last cs r h h1 h2 h3 h4
    rw [chunkLoop] at h
    obtain ⟨hh, -, h⟩ := bind_ok_inv h
    obtain ⟨ll, -, h⟩ := bind_ok_inv h
    dsimp only at h
    generalize hh.toNat * 2 ^ 32 + ll.toNat = off at h
    split at h
    · cases h
    split at h
    · cases h
    rename_i ha hb
    obtain ⟨id, -, h⟩ := bind_ok_inv h
    cases hk : kindOf id with
    | none => rw [hk] at h; cases h
    | some k =>
      rw [hk] at h
      dsimp only at h
      refine ih _ _ _ _ _ h (fun j hj => ?_) (fun j hj => ?_) (fun _ => .inr (by omega)) (fun _ => by omega)
      · have hne : j ≠ k := fun e => hj (by rw [e])
        unfold setOff
        rw [if_neg hne]
        cases last with
        | none =>
          have := h1 j (by simp)
          unfold setLen
          dsimp only
          omega
        | some l =>
          unfold setLen
          dsimp only
          by_cases hjl : j = l
          · rw [if_pos hjl]
            have := h2 j (by rw [hjl])
            dsimp only
            omega
          · rw [if_neg hjl]
            have := h1 j (by simpa using fun e => hjl e.symm)
            omega
      · have : j = k := by simpa using hj.symm
        subst this
        unfold setOff
        rw [if_pos rfl]

/-- the ids -/
def idAt (osz : Nat) (f : File) (i : Nat) : Bytes := match slice f.file (f.lookup + i * osz) osz with | .ok b => b | _ => []

def ids (osz : Nat) (f : File) : List Bytes := (List.range f.num).map (idAt osz f)

theorem memcmp_bcmp (n : Nat) : ∀ a b : Bytes, a.length = n → b.length = n → Oid.memcmp n a b = .ok (bcmp a b) := by
  induction n with
  | zero =>
    intro a b ha hb
    rw [List.length_eq_zero_iff] at ha hb
    subst ha hb
    rfl
  | succ n ih =>
    intro a b ha hb
    match a, b, ha, hb with
    | x :: a, y :: b, ha, hb =>
      simp only [Oid.memcmp, bcmp]
      split
      · rfl
      · split
        · rfl
        · exact ih a b (by simpa using ha) (by simpa using hb)

theorem lookupLoop_ok {osz : Nat} {file : Bytes} : ∀ n pos prev, prev.length = osz → lookupLoop osz file n pos prev = .ok () →
    pos + n * osz ≤ file.length → ∃ l : List Bytes, l.length = n ∧ (∀ i (h : i < l.length), slice file (pos + i * osz) osz = .ok l[i] ∧ l[i].length = osz) ∧
      (prev :: l).Pairwise (· < ·) := by
  intro n
  induction n with
  | zero =>
    intro pos prev _ _ _
    exact ⟨[], rfl, fun i h => absurd h (Nat.not_lt_zero _), by simp⟩
  | succ n ih =>
    intro pos prev hp h hle
    have hmul : (n + 1) * osz = n * osz + osz := Nat.succ_mul n osz
    rw [lookupLoop] at h
    obtain ⟨oid, ho, hol⟩ := slice_len (b := file) (off := pos) (len := osz) (by omega)
    rw [ho, bind_ok] at h
    unfold Oid.cmp at h
    rw [memcmp_bcmp osz _ _ hp hol, bind_ok] at h
    split at h
    · cases h
    rename_i hc
    obtain ⟨l, h1, h2, h3⟩ := ih _ _ hol h (by omega)
    refine ⟨oid :: l, by simp [h1], ?_, ?_⟩
    · intro i hi
      cases i with
      | zero => rw [Nat.zero_mul, Nat.add_zero]; exact ⟨ho, hol⟩
      | succ i =>
        have := h2 i (by simpa using hi)
        rw [List.getElem_cons_succ]
        rw [show pos + (i + 1) * osz = pos + osz + i * osz by rw [Nat.succ_mul]; omega]
        exact this
    · have hlt : prev < oid := bcmp_lt.mp (by omega)
      rw [List.pairwise_cons] at h3 ⊢
      refine ⟨fun x hx => ?_, List.pairwise_cons.mpr h3⟩
      rcases List.mem_cons.mp hx with rfl | hx
      · exact hlt
      · exact lt_trans hlt (h3.1 x hx)

end Verif.CommitGraph
