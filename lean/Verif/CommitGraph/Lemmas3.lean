import Verif.CommitGraph.Lemmas2
/-! # Lemmas: finding a commit in a commit-graph -/
namespace Verif.CommitGraph
open PackIdx (bind_ok_inv bind_ok bind_err fanAt fanLoop fanLoop_ok Table TableOK find_safe find_right lt_count head_mono lt_of_head ENOTFOUND EAMBIGUOUS)
open PackIdx.Spec Verif.B

theorem entryFind_eq {osz : Nat} {f : File} (ha : Acc osz f) (b0 : UInt8) (rest : Bytes) (len : Nat) :
    entryFind osz f (b0 :: rest) len =
      (PackIdx.find osz ⟨f.file, f.lookup, osz⟩ (ids osz f).length (if b0 = 0 then 0 else fanAt f.file f.fanout (b0.toNat - 1)) (fanAt f.file f.fanout b0.toNat)
        (b0 :: rest) len >>= fun r => getByIndex osz f r.1) ∧
    (if b0 = 0 then 0 else fanAt f.file f.fanout (b0.toNat - 1)) ≤ fanAt f.file f.fanout b0.toNat ∧
    fanAt f.file f.fanout b0.toNat ≤ (ids osz f).length := by
  have hb := b0.toNat_lt
  obtain ⟨⟨v, h1, h2⟩, h3⟩ := ha.fan b0.toNat (by omega)
  rw [ids_length]
  refine ⟨?_, ?_, h3⟩
  · unfold entryFind
    dsimp only
    rw [h1, bind_ok, h2]
    by_cases h0 : b0 = 0
    · rw [if_pos h0, if_pos h0]
      rfl
    · rw [if_neg h0, if_neg h0]
      obtain ⟨⟨w, h4, h5⟩, -⟩ := ha.fan (b0.toNat - 1) (by omega)
      rw [h4, bind_ok, bind_ok, h5]
  · split
    · exact Nat.zero_le _
    · exact ha.mono _ _ (by omega) (by omega)

theorem entryFind_ok {osz : Nat} {f : File} (ha : Acc osz f) (h0 : 0 < osz) {short : Bytes} (hs : short.length = osz) (len : Nat) :
    entryFind osz f short len ≠ .ub ∧ ∀ e, entryFind osz f short len = .ok e → EntryOK f e := by
  cases short with
  | nil => simp at hs; omega
  | cons b0 rest =>
    obtain ⟨h1, h2, h3⟩ := entryFind_eq ha b0 rest len
    rw [h1]
    rcases find_safe ha.table hs len h2 h3 with ⟨i, hi, hf⟩ | ⟨e, hf⟩
    · rw [hf, bind_ok]
      exact ⟨(get_ok ha _).1, fun e' h => ((get_ok ha _).2 e' h).1⟩
    · rw [hf, bind_err]
      exact ⟨(fun h => nomatch h), fun e h => nomatch h⟩

/-- the search with a fan-out table that counts the ids -/
theorem entryFind_right {osz : Nat} {f : File} (ha : Acc osz f) (h0 : 0 < osz) (hfan : FanRight f.file f.fanout (ids osz f)) {short : Bytes} {len : Nat}
    (hs : short.length = osz) (hp : Padded len short) :
    (∃ i, ∃ h : i < (ids osz f).length, entryFind osz f short len = getByIndex osz f i ∧ SamePrefix len short (ids osz f)[i] ∧
      ∀ j (hj : j < (ids osz f).length), SamePrefix len short (ids osz f)[j] → j = i) ∨
    (entryFind osz f short len = .err ENOTFOUND ∧ ∀ id ∈ ids osz f, ¬ SamePrefix len short id) ∨
    (entryFind osz f short len = .err EAMBIGUOUS ∧ ∃ i j, ∃ hi : i < (ids osz f).length, ∃ hj : j < (ids osz f).length, i < j ∧
      SamePrefix len short (ids osz f)[i] ∧ SamePrefix len short (ids osz f)[j]) := by
  have hfa : ∀ b < 256, fanAt f.file f.fanout b = ((ids osz f).filter fun id => (id.headD 0).toNat ≤ b).length := by
    intro b hb
    obtain ⟨v, hv, hv2⟩ := hfan b hb
    unfold fanAt
    rw [hv]; exact hv2
  have hcount : ∀ b < 256, ∀ i (hi : i < (ids osz f).length), i < fanAt f.file f.fanout b ↔ (((ids osz f)[i].headD 0).toNat ≤ b) := by
    intro b hb i hi
    rw [hfa b hb]
    rw [lt_count ha.sorted (fun id => decide ((id.headD 0).toNat ≤ b)) (fun x hx y hy hxy h => ?_) i hi, decide_eq_true_eq]
    have := head_mono hxy (by rw [ha.table.size x hx, ha.table.size y hy])
    rw [decide_eq_true_eq] at h ⊢
    omega
  cases short with
  | nil => simp at hs; omega
  | cons b0 rest =>
    have hb := b0.toNat_lt
    obtain ⟨h1, h2, h3⟩ := entryFind_eq ha b0 rest len
    rw [h1]
    have hlo : ∀ i (h : i < (ids osz f).length), i < (if b0 = 0 then 0 else fanAt f.file f.fanout (b0.toNat - 1)) → (ids osz f)[i] < b0 :: rest := by
      intro i hi hlt
      split at hlt
      · omega
      · rename_i h0
        have hne : b0.toNat ≠ 0 := fun hh => h0 (UInt8.toNat_inj.mp hh)
        have := (hcount (b0.toNat - 1) (by omega) i hi).mp hlt
        refine lt_of_head ?_
        rw [List.headD_cons]; omega
    have hhi : ∀ i (h : i < (ids osz f).length), fanAt f.file f.fanout b0.toNat ≤ i → b0 :: rest < (ids osz f)[i] := by
      intro i hi hlt
      have := mt (hcount b0.toNat (by omega) i hi).mpr (by omega)
      refine lt_of_head ?_
      rw [List.headD_cons]; omega
    rcases find_right ha.table ha.sorted hs hp h2 h3 hlo hhi with ⟨i, hi, hf, g1, g2⟩ | ⟨hf, g1⟩ | ⟨hf, i, j, hi, hj, hij, g1, g2⟩ <;> rw [hf]
    · exact .inl ⟨i, hi, rfl, g1, g2⟩
    · exact .inr (.inl ⟨rfl, g1⟩)
    · exact .inr (.inr ⟨rfl, i, j, hi, hj, hij, g1, g2⟩)

end Verif.CommitGraph
