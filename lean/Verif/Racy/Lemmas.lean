import Verif.Racy.Calm
/-! # Lemmas: hashing a file, times, the invariant -/
namespace Verif.Racy
open Spec

/-! ## hashing -/

theorem hashLoop_zero : ∀ (fuel size : Nat) (rest acc : Bytes), size < 2 ^ 64 → rest.length < 2 ^ 62 → rest.length < fuel → (hashLoop fuel size rest acc).2 = 0 →
    size ≤ rest.length ∧ (hashLoop fuel size rest acc).1 = acc ++ rest.take size := by
  intro fuel
  induction fuel with
  | zero => intro size rest acc _ _ h; omega
  | succ fuel ih =>
    intro size rest acc h1 h2 h3 h
    unfold hashLoop at h ⊢
    by_cases hc : size > 0 ∧ rest ≠ []
    · rw [if_pos hc] at h ⊢
      have hpos : 0 < rest.length := List.length_pos_iff.mpr hc.2
      have hl : (rest.take 65536).length = min 65536 rest.length := List.length_take
      have hd : (rest.drop 65536).length = rest.length - 65536 := List.length_drop
      obtain ⟨a, b⟩ := ih _ _ _ (by omega) (by omega) (by omega) h
      rw [hl, hd] at a
      by_cases hle : min 65536 rest.length ≤ size
      · have hm : (size + 2 ^ 64 - min 65536 rest.length) % 2 ^ 64 = size - min 65536 rest.length := by omega
        refine ⟨by omega, ?_⟩
        rw [b, hl, hm, List.append_assoc]
        congr 1
        by_cases h6 : rest.length ≤ 65536
        · rw [List.take_of_length_le h6, List.drop_of_length_le h6, List.take_nil, List.append_nil, List.take_of_length_le (by omega)]
        · rw [Nat.min_eq_left (by omega)]
          have h5 : size = 65536 + (size - 65536) := by omega
          conv => rhs; rw [h5, List.take_add]
      · exfalso
        omega
    · rw [if_neg hc] at h ⊢
      dsimp only at h ⊢
      subst h
      exact ⟨Nat.zero_le _, by simp⟩

theorem hashLoop_full : ∀ (fuel : Nat) (rest acc : Bytes), rest.length < 2 ^ 62 → rest.length < fuel → hashLoop fuel rest.length rest acc = (acc ++ rest, 0) := by
  intro fuel
  induction fuel with
  | zero => intro rest acc _ h; omega
  | succ fuel ih =>
    intro rest acc h2 h3
    unfold hashLoop
    by_cases hc : rest.length > 0 ∧ rest ≠ []
    · rw [if_pos hc]
      have hl : (rest.take 65536).length = min 65536 rest.length := List.length_take
      have hd : (rest.drop 65536).length = rest.length - 65536 := List.length_drop
      have hm : (rest.length + 2 ^ 64 - (rest.take 65536).length) % 2 ^ 64 = (rest.drop 65536).length := by
        rw [hl, hd]
        omega
      rw [hm, ih _ _ (by omega) (by omega), List.append_assoc, List.take_append_drop]
    · rw [if_neg hc]
      have : rest = [] := by
        by_cases hr : rest = []
        · exact hr
        · exact absurd ⟨List.length_pos_iff.mpr hr, hr⟩ hc
      subst this
      simp

theorem hashFd_ok {E : Env} {size : Nat} {c id : Bytes} (h1 : size < 2 ^ 64) (h2 : c.length < 2 ^ 62) (h : hashFd E size c = .ok id) :
    size ≤ c.length ∧ id = E.blobId size (c.take size) := by
  unfold hashFd at h
  dsimp only at h
  by_cases hz : (hashLoop (c.length + 1) size c []).2 > 0
  · rw [if_pos hz] at h; cases h
  · rw [if_neg hz] at h
    obtain ⟨a, b⟩ := hashLoop_zero _ _ _ _ h1 h2 (by omega) (by omega : (hashLoop (c.length + 1) size c []).2 = 0)
    rw [b] at h
    cases h
    exact ⟨a, rfl⟩

theorem hashFd_full (E : Env) {c : Bytes} (h : c.length < 2 ^ 62) : hashFd E c.length c = .ok (E.blobId c.length c) := by
  unfold hashFd
  rw [hashLoop_full _ _ _ h (by omega)]
  rfl

/-- the whole file is hashed -/
theorem hashFiltered_full (E : Env) {c : Bytes} (h : c.length < 2 ^ 62) : hashFiltered E c.length c = .ok (gitId E c) := by
  unfold hashFiltered gitId
  cases E.filter with
  | none => exact hashFd_full E h
  | some f =>
    dsimp only
    rw [List.take_length, if_neg (by omega)]

theorem hashFiltered_nil {E : Env} {size : Nat} {id : Bytes} (hs : size < 2 ^ 64) (h : hashFiltered E size [] = .ok id) : id = gitId E [] := by
  unfold hashFiltered at h
  unfold gitId
  cases hf : E.filter with
  | none =>
    rw [hf] at h
    obtain ⟨a, b⟩ := hashFd_ok hs (by decide) h
    have : size = 0 := by simpa using a
    subst this
    exact b
  | some f =>
    rw [hf] at h
    dsimp only at h
    by_cases hz : (([] : Bytes).take size).length ≠ size
    · rw [if_pos hz] at h; cases h
    · rw [if_neg hz] at h
      rw [List.take_nil] at h
      cases h
      rfl

/-! ## times -/

theorem int32_of_valid {t : Time} (h : t.Valid) : int32 t.sec = t.sec := by
  obtain ⟨a, b, _⟩ := h
  unfold int32
  omega

/-- what was written when, or after, the index was is not trusted -/
theorem newer_of_le (E : Env) {stamp t : Time} (hs : stamp.Valid) (ht : t.Valid) (h : stamp.le t) : newerThanIndex E (indexTime E t) stamp = true := by
  obtain ⟨s1, s2, s3⟩ := id hs
  obtain ⟨t1, t2, t3⟩ := id ht
  unfold newerThanIndex indexTime
  rw [if_neg (by omega), int32_of_valid hs, int32_of_valid ht]
  unfold Time.le at h
  by_cases hn : E.nsec = true
  · rw [if_pos hn, if_pos hn]
    dsimp only
    by_cases h1 : stamp.sec < t.sec
    · rw [if_pos h1]
    · rw [if_neg h1, if_neg (by omega)]
      exact decide_eq_true (by omega)
  · rw [if_neg hn]
    exact decide_eq_true (by dsimp only; omega)

theorem timeEq_iff {E : Env} {a b : IndexTime} : timeEq E a b = true ↔ a.seconds = b.seconds ∧ (E.nsec = true → a.nanoseconds = b.nanoseconds) := by
  unfold timeEq
  by_cases h1 : a.seconds ≠ b.seconds
  · rw [if_pos h1]; simp [h1]
  · rw [if_neg h1]
    by_cases h2 : (E.nsec && decide (a.nanoseconds ≠ b.nanoseconds)) = true
    · rw [if_pos h2]
      simp only [Bool.and_eq_true, decide_eq_true_eq] at h2
      simp [h2.1, h2.2]
    · rw [if_neg h2]
      simp only [Bool.and_eq_true, decide_eq_true_eq] at h2
      refine iff_of_true rfl ⟨by simpa using h1, fun hn => ?_⟩
      exact Classical.byContradiction fun hc => h2 ⟨hn, hc⟩

theorem newer_congr {E : Env} {a b : IndexTime} {s : Time} (h : timeEq E a b = true) : newerThanIndex E a s = newerThanIndex E b s := by
  obtain ⟨h1, h2⟩ := timeEq_iff.mp h
  unfold newerThanIndex
  rw [h1]
  by_cases hn : E.nsec = true
  · rw [if_pos hn, if_pos hn, h2 hn]
  · rw [if_neg hn, if_neg hn]

theorem newer_zero {E : Env} {a : IndexTime} {s : Time} (h : s.sec = 0) : newerThanIndex E a s = false := by
  unfold newerThanIndex
  rw [if_pos h]

/-! ## the comparison -/

theorem confirm_ok {E : Env} {o : Entry} {st : Stat} {c : Bytes} {v : Verdict} (h : confirm E o st c = .ok v) :
    v.modified = !v.confirmed ∧ (v.confirmed = true → hashFiltered E (st.size % 2 ^ 32) c = .ok o.id ∧ o.mode = newMode E o st) := by
  unfold confirm at h
  cases hh : hashFiltered E (st.size % 2 ^ 32) c with
  | err e => rw [hh] at h; cases h
  | ub => rw [hh] at h; cases h
  | ok id =>
    rw [hh] at h
    rw [Res.bind_ok] at h
    cases h
    refine ⟨rfl, fun hc => ?_⟩
    simp only [Bool.and_eq_true, decide_eq_true_eq] at hc
    exact ⟨by rw [hc.2], hc.1⟩

/-- what a verdict rests on -/
theorem maybeModified_ok {E : Env} {o : Entry} {stamp : Time} {st : Stat} {c : Bytes} {v : Verdict} (ha : o.assumeUnchanged = false) (hs : o.skipWorktree = false)
    (h : maybeModified E o stamp st c = .ok v) :
    (v.confirmed = true → hashFiltered E (st.size % 2 ^ 32) c = .ok o.id ∧ o.mode = newMode E o st) ∧
    (v.modified = false → v.confirmed = false → o.mode = newMode E o st ∧ o.size = st.size % 2 ^ 32 ∧ timeEq E o.mtime (indexTime E st.mtime) = true ∧
      newerThanIndex E (indexTime E st.mtime) stamp = false) := by
  unfold maybeModified at h
  rw [if_neg (by rw [ha]; decide), if_neg (by rw [hs]; decide)] at h
  dsimp only at h
  have hn : (entryFromStat E st (newMode E o st) []).mode = newMode E o st := rfl
  have hz : (entryFromStat E st (newMode E o st) []).size = st.size % 2 ^ 32 := rfl
  have ht : (entryFromStat E st (newMode E o st) []).mtime = indexTime E st.mtime := rfl
  rw [hn, hz, ht] at h
  by_cases h1 : o.mode ≠ newMode E o st ∨ o.size ≠ st.size % 2 ^ 32
  · rw [if_pos h1] at h
    by_cases h2 : o.size = 0 ∧ st.size % 2 ^ 32 > 0
    · rw [if_pos h2] at h
      obtain ⟨a, b⟩ := confirm_ok h
      exact ⟨b, fun x y => by rw [a, y] at x; cases x⟩
    · rw [if_neg h2] at h
      cases h
      exact ⟨(fun x => nomatch x), (fun x => nomatch x)⟩
  · rw [if_neg h1] at h
    split at h
    · obtain ⟨a, b⟩ := confirm_ok h
      exact ⟨b, fun x y => by rw [a, y] at x; cases x⟩
    · rename_i h3
      cases h
      refine ⟨(fun x => nomatch x), fun _ _ => ?_⟩
      simp only [Bool.or_eq_true, Bool.not_eq_true', decide_eq_true_eq, not_or, Bool.not_eq_true, Bool.not_eq_false] at h3
      refine ⟨Classical.byContradiction fun hc => h1 (.inl hc), Classical.byContradiction fun hc => h1 (.inr hc), h3.1.1.1, h3.2⟩

/-- a racy entry is only found unmodified by looking into the file -/
theorem racy_confirmed {E : Env} {o : Entry} {stamp : Time} {st : Stat} {c : Bytes} {v : Verdict} (ha : o.assumeUnchanged = false) (hs : o.skipWorktree = false)
    (h : maybeModified E o stamp st c = .ok v) (hr : newerThanIndex E o.mtime stamp = true) (hv : v.modified = false) : v.confirmed = true := by
  cases hc : v.confirmed with
  | true => rfl
  | false =>
    obtain ⟨_, _, ht, hn⟩ := (maybeModified_ok ha hs h).2 hv hc
    rw [newer_congr ht] at hr
    rw [hn] at hr
    cases hr

end Verif.Racy
