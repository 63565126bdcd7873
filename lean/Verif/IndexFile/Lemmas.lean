import Verif.IndexFile.Model
import Verif.Varint.Props
/-! Lemmas about the index file codec. -/
namespace Verif.IndexFile

theorem fixedPart_length (e : Entry) (h : e.id.length = 20) : (fixedPart e).length = pathOffset e.flags := by
  unfold fixedPart pathOffset
  simp only [List.length_append, be32_length, be16_length, h]
  split <;> simp [be16_length]

/-- what the disk keeps of the extended flags -/
def keepExt (e : Entry) : UInt16 := if isExt e.flags then e.flagsExt &&& 0x6000 else 0

theorem readFixed_ok (e : Entry) (h : e.id.length = 20) (rest : Bytes) (hr : rest ≠ []) :
    readFixed (fixedPart e ++ rest) = .ok { e with path := [], flagsExt := keepExt e } := by
  have hl := fixedPart_length e h
  have hoff : 62 ≤ pathOffset e.flags := by unfold pathOffset; split <;> omega
  have hrl : 0 < rest.length := List.length_pos_iff.mpr hr
  unfold readFixed
  have h0 : ∃ m, slice (fixedPart e ++ rest ++ [0]) 0 64 = .ok m := by
    obtain ⟨m, hm, -⟩ := slice_len (b := fixedPart e ++ rest ++ [0]) (off := 0) (len := 64) (by simp; omega)
    exact ⟨m, hm⟩
  obtain ⟨m, hm⟩ := h0
  rw [hm]
  have r0 := rd32_at (pre := []) (x := e.ctimeSec) (post := be32 e.ctimeNsec ++ be32 e.mtimeSec ++ be32 e.mtimeNsec ++ be32 e.dev ++ be32 e.ino ++ be32 e.mode ++ be32 e.uid ++ be32 e.gid ++ be32 e.fileSize ++ e.id ++ be16 e.flags ++ (if isExt e.flags then be16 (e.flagsExt &&& 0x6000) else []) ++ rest) (off := 0) rfl
  have r1 := rd32_at (pre := be32 e.ctimeSec) (x := e.ctimeNsec) (post := be32 e.mtimeSec ++ be32 e.mtimeNsec ++ be32 e.dev ++ be32 e.ino ++ be32 e.mode ++ be32 e.uid ++ be32 e.gid ++ be32 e.fileSize ++ e.id ++ be16 e.flags ++ (if isExt e.flags then be16 (e.flagsExt &&& 0x6000) else []) ++ rest) (off := 4) rfl
  have r2 := rd32_at (pre := be32 e.ctimeSec ++ be32 e.ctimeNsec) (x := e.mtimeSec) (post := be32 e.mtimeNsec ++ be32 e.dev ++ be32 e.ino ++ be32 e.mode ++ be32 e.uid ++ be32 e.gid ++ be32 e.fileSize ++ e.id ++ be16 e.flags ++ (if isExt e.flags then be16 (e.flagsExt &&& 0x6000) else []) ++ rest) (off := 8) rfl
  have r3 := rd32_at (pre := be32 e.ctimeSec ++ be32 e.ctimeNsec ++ be32 e.mtimeSec) (x := e.mtimeNsec) (post := be32 e.dev ++ be32 e.ino ++ be32 e.mode ++ be32 e.uid ++ be32 e.gid ++ be32 e.fileSize ++ e.id ++ be16 e.flags ++ (if isExt e.flags then be16 (e.flagsExt &&& 0x6000) else []) ++ rest) (off := 12) rfl
  have r4 := rd32_at (pre := be32 e.ctimeSec ++ be32 e.ctimeNsec ++ be32 e.mtimeSec ++ be32 e.mtimeNsec) (x := e.dev) (post := be32 e.ino ++ be32 e.mode ++ be32 e.uid ++ be32 e.gid ++ be32 e.fileSize ++ e.id ++ be16 e.flags ++ (if isExt e.flags then be16 (e.flagsExt &&& 0x6000) else []) ++ rest) (off := 16) rfl
  have r5 := rd32_at (pre := be32 e.ctimeSec ++ be32 e.ctimeNsec ++ be32 e.mtimeSec ++ be32 e.mtimeNsec ++ be32 e.dev) (x := e.ino) (post := be32 e.mode ++ be32 e.uid ++ be32 e.gid ++ be32 e.fileSize ++ e.id ++ be16 e.flags ++ (if isExt e.flags then be16 (e.flagsExt &&& 0x6000) else []) ++ rest) (off := 20) rfl
  have r6 := rd32_at (pre := be32 e.ctimeSec ++ be32 e.ctimeNsec ++ be32 e.mtimeSec ++ be32 e.mtimeNsec ++ be32 e.dev ++ be32 e.ino) (x := e.mode) (post := be32 e.uid ++ be32 e.gid ++ be32 e.fileSize ++ e.id ++ be16 e.flags ++ (if isExt e.flags then be16 (e.flagsExt &&& 0x6000) else []) ++ rest) (off := 24) rfl
  have r7 := rd32_at (pre := be32 e.ctimeSec ++ be32 e.ctimeNsec ++ be32 e.mtimeSec ++ be32 e.mtimeNsec ++ be32 e.dev ++ be32 e.ino ++ be32 e.mode) (x := e.uid) (post := be32 e.gid ++ be32 e.fileSize ++ e.id ++ be16 e.flags ++ (if isExt e.flags then be16 (e.flagsExt &&& 0x6000) else []) ++ rest) (off := 28) rfl
  have r8 := rd32_at (pre := be32 e.ctimeSec ++ be32 e.ctimeNsec ++ be32 e.mtimeSec ++ be32 e.mtimeNsec ++ be32 e.dev ++ be32 e.ino ++ be32 e.mode ++ be32 e.uid) (x := e.gid) (post := be32 e.fileSize ++ e.id ++ be16 e.flags ++ (if isExt e.flags then be16 (e.flagsExt &&& 0x6000) else []) ++ rest) (off := 32) rfl
  have r9 := rd32_at (pre := be32 e.ctimeSec ++ be32 e.ctimeNsec ++ be32 e.mtimeSec ++ be32 e.mtimeNsec ++ be32 e.dev ++ be32 e.ino ++ be32 e.mode ++ be32 e.uid ++ be32 e.gid) (x := e.fileSize) (post := e.id ++ be16 e.flags ++ (if isExt e.flags then be16 (e.flagsExt &&& 0x6000) else []) ++ rest) (off := 36) rfl
  have r10 := slice_append (pre := be32 e.ctimeSec ++ be32 e.ctimeNsec ++ be32 e.mtimeSec ++ be32 e.mtimeNsec ++ be32 e.dev ++ be32 e.ino ++ be32 e.mode ++ be32 e.uid ++ be32 e.gid ++ be32 e.fileSize) (mid := e.id) (post := be16 e.flags ++ (if isExt e.flags then be16 (e.flagsExt &&& 0x6000) else []) ++ rest) (off := 40) rfl h
  have r11 := rd16_at (pre := be32 e.ctimeSec ++ be32 e.ctimeNsec ++ be32 e.mtimeSec ++ be32 e.mtimeNsec ++ be32 e.dev ++ be32 e.ino ++ be32 e.mode ++ be32 e.uid ++ be32 e.gid ++ be32 e.fileSize ++ e.id) (x := e.flags) (post := (if isExt e.flags then be16 (e.flagsExt &&& 0x6000) else []) ++ rest) (off := 60) (by simp [be32_length, h])
  simp only [List.append_assoc, List.nil_append] at r0 r1 r2 r3 r4 r5 r6 r7 r8 r9 r10 r11
  unfold fixedPart at *
  simp only [List.append_assoc] at *
  rw [r0, r1, r2, r3, r4, r5, r6, r7, r8, r9, r10, r11]
  simp only [Res.bind_ok]
  by_cases hx : isExt e.flags = true
  · have r12 := rd16_at (pre := be32 e.ctimeSec ++ be32 e.ctimeNsec ++ be32 e.mtimeSec ++ be32 e.mtimeNsec ++ be32 e.dev ++ be32 e.ino ++ be32 e.mode ++ be32 e.uid ++ be32 e.gid ++ be32 e.fileSize ++ e.id ++ be16 e.flags) (x := e.flagsExt &&& 0x6000) (post := rest ++ [0]) (off := 62) (by simp [be32_length, be16_length, h])
    simp only [List.append_assoc] at r12
    simp only [hx, if_true]
    rw [r12]
    simp [keepExt, hx]
  · simp [keepExt, hx]

theorem readFixed_total (b : Bytes) (h : 82 ≤ b.length) : ∃ e, readFixed b = .ok e := by
  unfold readFixed
  obtain ⟨m, hm, -⟩ := slice_len (b := b ++ [0]) (off := 0) (len := 64) (by simp; omega)
  obtain ⟨x0, h0⟩ := rd32_ok (b := b) (off := 0) (by omega)
  obtain ⟨x1, h1⟩ := rd32_ok (b := b) (off := 4) (by omega)
  obtain ⟨x2, h2⟩ := rd32_ok (b := b) (off := 8) (by omega)
  obtain ⟨x3, h3⟩ := rd32_ok (b := b) (off := 12) (by omega)
  obtain ⟨x4, h4⟩ := rd32_ok (b := b) (off := 16) (by omega)
  obtain ⟨x5, h5⟩ := rd32_ok (b := b) (off := 20) (by omega)
  obtain ⟨x6, h6⟩ := rd32_ok (b := b) (off := 24) (by omega)
  obtain ⟨x7, h7⟩ := rd32_ok (b := b) (off := 28) (by omega)
  obtain ⟨x8, h8⟩ := rd32_ok (b := b) (off := 32) (by omega)
  obtain ⟨x9, h9⟩ := rd32_ok (b := b) (off := 36) (by omega)
  obtain ⟨i, hi, -⟩ := slice_len (b := b) (off := 40) (len := 20) (by omega)
  obtain ⟨f, hf⟩ := rd16_ok (b := b) (off := 60) (by omega)
  obtain ⟨f2, hf2⟩ := rd16_ok (b := b ++ [0]) (off := 62) (by simp; omega)
  rw [hm, h0, h1, h2, h3, h4, h5, h6, h7, h8, h9, hi, hf, hf2]
  simp only [Res.bind_ok]
  split <;> exact ⟨_, rfl⟩

theorem cstrlen_ok {m : Bytes} (h : 0 ∈ m) : cstrlen m = .ok (m.takeWhile (· ≠ 0)).length := by unfold cstrlen; rw [if_pos h]

theorem decode_len {m : Bytes} {v : UInt64} {n : Nat} (h : Varint.decode m = .ok (v, n)) : n ≤ 11 := by
  obtain ⟨h1, h2, h3⟩ := Varint.C01_decode_sound m v n h
  cases hm : m.take n with
  | nil => rw [hm] at h2; exact h2.elim
  | cons c cs =>
    rw [hm, Varint.value_cons] at h3
    have := Varint.length_of_dec_lt cs _ (by rw [← h3]; exact v.toNat_lt)
    have hl := congrArg List.length hm
    simp at hl
    omega

theorem readEntry_safe (env : Env) (version : Nat) (b last : Bytes) : readEntry env version b last ≠ .ub := by
  unfold readEntry
  split
  · simp
  · rename_i hlen
    obtain ⟨e, he⟩ := readFixed_total b (by omega)
    rw [he]
    simp only [Res.bind_ok]
    have hoff : pathOffset e.flags ≤ 64 := by unfold pathOffset; split <;> omega
    have hoff2 : 62 ≤ pathOffset e.flags := by unfold pathOffset; split <;> omega
    have hm0 : ∀ k, pathOffset e.flags + k ≤ b.length → (0 : UInt8) ∈ ((b ++ [0]).drop (pathOffset e.flags)).drop k := by
      intro k hk
      rw [List.drop_drop, List.drop_append_of_le_length (by omega)]
      simp
    have hml : ((b ++ [0]).drop (pathOffset e.flags)).length = b.length + 1 - pathOffset e.flags := by simp
    have hfin : ∀ r, finishEntry env b.length e r ≠ .ub := by
      intro r; unfold finishEntry; repeat' split
      all_goals simp
    have hpath : readPath version e.flags b.length ((b ++ [0]).drop (pathOffset e.flags)) last ≠ .ub → (readPath version e.flags b.length ((b ++ [0]).drop (pathOffset e.flags)) last >>= finishEntry env b.length e) ≠ .ub := by
      intro hr
      generalize readPath version e.flags b.length ((b ++ [0]).drop (pathOffset e.flags)) last = r at *
      cases r with
      | ub => exact absurd rfl hr
      | err c => simp
      | ok x => exact hfin x
    apply hpath
    unfold readPath
    split
    · unfold readPathComp
      have hd := Varint.C01_decode_in_bounds ((b ++ [0]).drop (pathOffset e.flags)) (by omega)
      cases hdec : Varint.decode ((b ++ [0]).drop (pathOffset e.flags)) with
      | ub => exact absurd hdec hd
      | err c => simp
      | ok p =>
        obtain ⟨v, n⟩ := p
        simp only [Res.bind_ok]
        split
        · simp
        · have hn : n ≤ 11 := by
            exact decode_len hdec
          rw [cstrlen_ok (hm0 n (by omega))]
          simp only [Res.bind_ok]
          split <;> simp
    · unfold readPathPlain
      have h0 : (0 : UInt8) ∈ (b ++ [0]).drop (pathOffset e.flags) := by simpa using hm0 0 (by omega)
      have hc := cstrlen_ok h0
      rw [hc]
      unfold plainLength
      split
      · have : memchr0 ((b ++ [0]).drop (pathOffset e.flags)) b.length = .ok (some (((b ++ [0]).drop (pathOffset e.flags)).takeWhile (· ≠ 0)).length) := by
          unfold memchr0
          rw [List.take_of_length_le (by omega), if_pos h0]
        rw [this]
        simp
      · simp

theorem readEntry_size {env : Env} {version : Nat} {b last : Bytes} {e : Entry} {size : Nat} (h : readEntry env version b last = .ok (e, size)) :
    0 < size ∧ 20 + size ≤ b.length ∧ env.pathValid e.path = true := by
  unfold readEntry at h
  split at h
  · cases h
  · cases hf : readFixed b with
    | ub => rw [hf] at h; cases h
    | err c => rw [hf] at h; cases h
    | ok e0 =>
      rw [hf] at h
      simp only [Res.bind_ok] at h
      generalize readPath version e0.flags b.length ((b ++ [0]).drop (pathOffset e0.flags)) last = r at h
      cases r with
      | ub => cases h
      | err c => cases h
      | ok p =>
        obtain ⟨p, s⟩ := p
        simp only [Res.bind_ok, finishEntry] at h
        split at h
        · cases h
        · split at h
          · cases h
          · split at h
            · cases h
            · rename_i h1 h2 h3
              cases h
              exact ⟨by omega, by omega, by simpa using h3⟩

theorem readEntries_ok (env : Env) (version n : Nat) : ∀ (b last : Bytes), 20 ≤ b.length →
    readEntries env version n b last ≠ .ub ∧
    ∀ es b', readEntries env version n b last = .ok (es, b') → es.length = n ∧ 20 ≤ b'.length ∧ (∃ pre, b = pre ++ b') ∧ ∀ e ∈ es, env.pathValid e.path = true := by
  induction n with
  | zero =>
    intro b last hb
    simp only [readEntries]
    refine ⟨by simp, ?_⟩
    rintro es b' h
    cases h
    exact ⟨rfl, hb, ⟨[], rfl⟩, by simp⟩
  | succ n ih =>
    intro b last hb
    rw [readEntries]
    split
    · exact ⟨by simp, by intro es b' h; cases h⟩
    · cases he : readEntry env version b last with
      | ub => exact absurd he (readEntry_safe env version b last)
      | err c => exact ⟨by simp, by intro es b' h; cases h⟩
      | ok p =>
        obtain ⟨e, size⟩ := p
        obtain ⟨h1, h2, h3⟩ := readEntry_size he
        simp only [Res.bind_ok]
        rw [if_neg (by omega)]
        obtain ⟨g1, g2⟩ := ih (b.drop size) e.path (by simp; omega)
        cases hr : readEntries env version n (b.drop size) e.path with
        | ub => exact absurd hr g1
        | err c => exact ⟨by simp, by intro es b' h; cases h⟩
        | ok q =>
          obtain ⟨es, b1⟩ := q
          simp only [Res.bind_ok]
          refine ⟨by simp, ?_⟩
          intro es' b' h
          cases h
          obtain ⟨k1, k2, ⟨pre, k3⟩, k4⟩ := g2 es b1 hr
          refine ⟨by simp [k1], k2, ⟨b.take size ++ pre, ?_⟩, ?_⟩
          · rw [List.append_assoc, ← k3, List.take_append_drop]
          · intro x hx
            rcases List.mem_cons.mp hx with rfl | hx
            · exact h3
            · exact k4 x hx

theorem readExtension_ok (env : Env) (b : Bytes) (h : 20 < b.length) :
    readExtension env b ≠ .ub ∧ ∀ x size, readExtension env b = .ok (x, size) → 8 ≤ size ∧ size + 20 ≤ b.length := by
  unfold readExtension
  obtain ⟨m, hm, -⟩ := slice_len (b := b ++ [0]) (off := 0) (len := 4) (by simp; omega)
  obtain ⟨s, hs⟩ := rd32_ok (b := b ++ [0]) (off := 4) (by simp; omega)
  rw [hm, hs]
  simp only [Res.bind_ok]
  split
  · exact ⟨by simp, by intro x size h; cases h⟩
  · split
    · exact ⟨by simp, by intro x size h; cases h⟩
    · split
      · exact ⟨by simp, by intro x size h; cases h⟩
      · refine ⟨by simp, ?_⟩
        intro x size h
        cases h
        omega

theorem readExtensions_ok (env : Env) (fuel : Nat) : ∀ (b : Bytes), b.length < fuel → 20 ≤ b.length →
    readExtensions env fuel b ≠ .ub ∧ ∀ xs b', readExtensions env fuel b = .ok (xs, b') → b'.length = 20 ∧ ∃ pre, b = pre ++ b' := by
  induction fuel with
  | zero => intro b h; omega
  | succ fuel ih =>
    intro b hf hb
    rw [readExtensions]
    split
    · refine ⟨by simp, ?_⟩
      intro xs b' h
      cases h
      exact ⟨by omega, [], rfl⟩
    · obtain ⟨g1, g2⟩ := readExtension_ok env b (by omega)
      cases he : readExtension env b with
      | ub => exact absurd he g1
      | err c => exact ⟨by simp, by intro es b' h; cases h⟩
      | ok p =>
        obtain ⟨x, size⟩ := p
        obtain ⟨h1, h2⟩ := g2 x size he
        simp only [Res.bind_ok]
        rw [if_neg (by omega)]
        obtain ⟨k1, k2⟩ := ih (b.drop size) (by simp; omega) (by simp; omega)
        cases hr : readExtensions env fuel (b.drop size) with
        | ub => exact absurd hr k1
        | err c => exact ⟨by simp, by intro es b' h; cases h⟩
        | ok q =>
          obtain ⟨xs, b1⟩ := q
          simp only [Res.bind_ok]
          refine ⟨by simp, ?_⟩
          intro xs' b' h
          cases h
          obtain ⟨k3, pre, k4⟩ := k2 xs b1 hr
          exact ⟨k3, b.take size ++ pre, by rw [List.append_assoc, ← k4, List.take_append_drop]⟩

end Verif.IndexFile
