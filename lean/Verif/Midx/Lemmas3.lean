import Verif.Midx.Lemmas2
/-! # Lemmas: a written multi-pack-index is accepted -/
namespace Verif.Midx
open PackIdx (bind_ok_inv bind_ok bind_err ENOTFOUND fanLoop fanAt fanLoop_of flatMap_len flatMap_split)
open Verif.B

theorem chunk_step {file pre post : Bytes} {trailer n id off lastOff : Nat} {last : Option Kind} {cs : Chunks} {k : Kind} {pos : Nat}
    (hf : file = pre ++ chunkHeader id off ++ post) (hp : pre.length = pos) (hoff : off < 2 ^ 62) (h1 : lastOff ≤ off) (h2 : off < trailer)
    (hk : kindOf (UInt32.ofNat id) = k) :
    chunkLoop file trailer (n + 1) pos lastOff last cs = chunkLoop file trailer n (pos + 12) off (some k) (setOff (setLen cs last (off - lastOff)) k off) := by
  unfold chunkHeader offset64 at hf
  have r0 : rd32 file pos = .ok (UInt32.ofNat id) := by
    rw [hf, show pre ++ (word id ++ (word (off / 2 ^ 32) ++ word (off % 2 ^ 32))) ++ post = pre ++ word id ++ (word (off / 2 ^ 32) ++ word (off % 2 ^ 32) ++ post) by simp]
    exact rd32_at hp
  obtain ⟨h, r1, e1⟩ := rd32_word (f := file) (pre := pre ++ word id) (post := word (off % 2 ^ 32) ++ post) (n := off / 2 ^ 32) (pos := pos + 4)
    (by rw [hf]; simp) (by simp [word_len, hp]) (by omega)
  obtain ⟨l, r2, e2⟩ := rd32_word (f := file) (pre := pre ++ word id ++ word (off / 2 ^ 32)) (post := post) (n := off % 2 ^ 32) (pos := pos + 8)
    (by rw [hf]; simp) (by simp [word_len, hp]) (by omega)
  rw [chunkLoop, r0, bind_ok, r1, bind_ok, r2, bind_ok]
  rw [if_neg (by omega)]
  dsimp only
  rw [e1, e2, show off / 2 ^ 32 * 2 ^ 32 + off % 2 ^ 32 = off by omega, if_neg (by omega), if_neg (by omega), hk]

theorem fan_read {fan : List Nat} {file pre post : Bytes} (hf : file = pre ++ fan.flatMap word ++ post) (hlt : ∀ x ∈ fan, x < 2 ^ 32) (j : Nat) (hj : j < fan.length) :
    ∃ v, rd32 file (pre.length + 4 * j) = .ok v ∧ v.toNat = fan[j] := CommitGraph.fan_read hf hlt j hj

theorem fan_bytes {fan : List Nat} : (fan.flatMap word).length = fan.length * 4 := flatMap_len fun _ _ => word_len _

/-- the tables -/
structure Tables (osz num : Nat) (nl : List Bytes) (names : Bytes) (fan : List Nat) (lookup offsets large : Bytes) : Prop where
  read : nameLoop nl.length names none = .ok nl
  namesLen : 0 < names.length ∧ names.length < 2 ^ 40
  count : nl.length < 2 ^ 32
  fanLen : fan.length = 256
  mono : ∀ i j (hi : i < fan.length) (hj : j < fan.length), i ≤ j → fan[i] ≤ fan[j]
  last : ∀ h : 255 < fan.length, fan[255] = num
  numLt : 0 < num ∧ num < 2 ^ 31
  lookupLen : lookup.length = num * osz
  offsetsLen : offsets.length = num * 8
  largeLen : large.length % 8 = 0 ∧ large.length < 2 ^ 40

theorem Tables.fanLt {osz num : Nat} {nl : List Bytes} {names : Bytes} {fan : List Nat} {lookup offsets large : Bytes} (ht : Tables osz num nl names fan lookup offsets large) :
    ∀ x ∈ fan, x < 2 ^ 32 := by
  intro x hx
  obtain ⟨i, hi, rfl⟩ := List.getElem_of_mem hx
  have h255 : 255 < fan.length := by rw [ht.fanLen]; omega
  have := ht.mono i 255 hi h255 (by have := ht.fanLen; omega)
  rw [ht.last h255] at this
  have := ht.numLt.2
  omega

/-- where the chunks are -/
def start (large : Bytes) : Nat := if large.length > 0 then 84 else 72

theorem parse_written {osz num : Nat} {nl : List Bytes} {names : Bytes} {fan : List Nat} {lookup offsets large s : Bytes}
    (ht : Tables osz num nl names fan lookup offsets large) (h0 : 0 < osz) (h32 : osz ≤ 32) (hs : s.length = osz) :
    ∃ pre, pre.length = start large ∧ body nl.length names fan lookup offsets large ++ s = pre ++ names ++ fan.flatMap word ++ lookup ++ offsets ++ large ++ s ∧
    parse osz (body nl.length names fan lookup offsets large ++ s) =
      .ok ⟨body nl.length names fan lookup offsets large ++ s, nl, start large + names.length, num, start large + names.length + 1024,
        start large + names.length + 1024 + num * osz, if large.length > 0 then start large + names.length + 1024 + num * osz + num * 8 else 0, large.length / 8, s⟩ := by
  have hfl : (fan.flatMap word).length = 1024 := by rw [fan_bytes, ht.fanLen]
  have hlookup := ht.lookupLen
  have hoffsets := ht.offsetsLen
  have hcount := ht.count
  obtain ⟨hn0, hn1⟩ := ht.namesLen
  obtain ⟨hb0, hb1⟩ := ht.numLt
  obtain ⟨hlm, hll⟩ := ht.largeLen
  have hmul : num * osz ≤ 2 ^ 31 * 32 := Nat.mul_le_mul (by omega) h32
  have hmul3 : 1 * osz ≤ num * osz := Nat.mul_le_mul_right _ hb0
  have hN : ∀ f : Bytes, ∀ base, (∀ j < 256, ∃ v, rd32 f (base + 4 * j) = .ok v ∧ ∃ h : j < fan.length, v.toNat = fan[j]) → fanLoop f base 256 0 = .ok num := by
    intro f base hf
    have hfa : ∀ j < 256, ∃ h : j < fan.length, fanAt f base j = fan[j] := by
      intro j hj
      obtain ⟨v, h1, h2, h3⟩ := hf j hj
      exact ⟨h2, by unfold fanAt; rw [h1]; exact h3⟩
    have := fanLoop_of (file := f) (base := base) (fun j hj => ?_) (fun i j hij hj => ?_) 256 0 (Nat.le_refl _) (fun _ => Nat.zero_le _)
    · rw [this, if_neg (by omega)]
      obtain ⟨h1, h2⟩ := hfa 255 (by omega)
      rw [h2, ht.last h1]
    · obtain ⟨v, h1, h2, h3⟩ := hf j hj
      obtain ⟨_, h5⟩ := hfa j hj
      exact ⟨v, h1, by rw [h5]; exact h3⟩
    · obtain ⟨h1, h2⟩ := hfa i (by omega)
      obtain ⟨h3, h4⟩ := hfa j hj
      rw [h2, h4]
      exact ht.mono i j h1 h3 hij
  have hfanlt := ht.fanLt
  -- the common part: everything after the chunk table
  have fin : ∀ (file pre : Bytes) (cs : Chunks) (st : Nat) (w : UInt32), w.toNat = nl.length →
      file = pre ++ names ++ fan.flatMap word ++ lookup ++ offsets ++ large ++ s → pre.length = st → 0 < st →
      cs .names = ⟨st, names.length⟩ → cs .fanout = ⟨st + names.length, 1024⟩ → cs .lookup = ⟨st + names.length + 1024, num * osz⟩ →
      cs .offsets = ⟨st + names.length + 1024 + num * osz, num * 8⟩ →
      cs .large = (if large.length > 0 then ⟨st + names.length + 1024 + num * osz + num * 8, large.length⟩ else ⟨0, 0⟩) →
      (parseNames file w.toNat (cs .names) >>= fun names =>
        parseFanout file (cs .fanout) >>= fun num =>
        parseTable osz num (cs .lookup) >>= fun _ =>
        parseTable 8 num (cs .offsets) >>= fun _ =>
        parseLarge (cs .large) >>= fun e =>
        Res.ok (⟨file, names, (cs .fanout).off, num, (cs .lookup).off, (cs .offsets).off, e.1, e.2, s⟩ : File)) =
      .ok ⟨file, nl, st + names.length, num, st + names.length + 1024, st + names.length + 1024 + num * osz,
        if large.length > 0 then st + names.length + 1024 + num * osz + num * 8 else 0, large.length / 8, s⟩ := by
    intro file pre cs st w hw hf hp hst c0 c1 c2 c3 c4
    rw [c0, c1, c2, c3, c4, hw]
    have hsl : slice file st names.length = .ok names := by
      rw [hf, List.append_assoc, List.append_assoc, List.append_assoc, List.append_assoc]
      exact slice_append hp rfl
    unfold parseNames
    dsimp only
    rw [if_neg (by omega), if_neg (by omega), hsl, bind_ok, ht.read, bind_ok]
    unfold parseFanout
    dsimp only
    rw [if_neg (by omega), if_neg (by omega), if_neg (by omega), hN file (st + names.length) fun j hj => ?_, bind_ok]
    · unfold parseTable
      dsimp only
      rw [if_neg (by omega), if_neg (by omega), if_neg (by omega), bind_ok, if_neg (by omega), if_neg (by omega), if_neg (by omega), bind_ok]
      unfold parseLarge
      by_cases hz : large.length > 0
      · simp only [if_pos hz]
        rw [if_neg (by omega), if_neg (by omega), bind_ok]
      · simp only [if_neg hz]
        rw [if_pos trivial, bind_ok, show large.length / 8 = 0 by omega]
    · have hj' : j < fan.length := by rw [ht.fanLen]; exact hj
      obtain ⟨v, h1, h2⟩ := fan_read (file := file) (pre := pre ++ names) (post := lookup ++ offsets ++ large ++ s) (by rw [hf]; simp) hfanlt j hj'
      rw [List.length_append, hp] at h1
      exact ⟨v, h1, hj', h2⟩
  by_cases hz : large.length > 0
  · -- five chunks
    have hst : start large = 84 := by unfold start; rw [if_pos hz]
    rw [hst]
    generalize hA1 : 84 + names.length = o1
    generalize hA3 : o1 + 1024 + lookup.length = o3
    generalize hA4 : o3 + offsets.length = o4
    have hbody : body nl.length names fan lookup offsets large ++ s =
        (word 0x4d494458 ++ [1, 1, 5, 0] ++ word nl.length ++ chunkHeader 0x504e414d 84 ++ chunkHeader 0x4f494446 o1 ++ chunkHeader 0x4f49444c (o1 + 1024) ++ chunkHeader 0x4f4f4646 o3 ++ chunkHeader 0x4c4f4646 o4 ++ chunkHeader 0 (o4 + large.length)) ++ names ++ fan.flatMap word ++ lookup ++ offsets ++ large ++ s := by
      unfold body
      simp only [if_pos hz]
      rw [← hA4, ← hA3, ← hA1]
      rfl
    rw [hlookup] at hA3
    rw [hoffsets] at hA4
    refine ⟨_, ?_, hbody, ?_⟩
    · simp [word_len, chunkHeader_len]
    generalize body nl.length names fan lookup offsets large ++ s = file at hbody
    have hlen : file.length = o4 + large.length + osz := by
      rw [hbody]
      simp only [List.length_append, word_len, chunkHeader_len, hfl, List.length_cons, List.length_nil, hs]
      omega
    unfold parse
    rw [if_neg (by omega)]
    have r0 : rd32 file 0 = .ok 0x4d494458 := by
      rw [hbody]
      simp only [List.append_assoc]
      exact rd32_at (pre := []) rfl
    have r1 : slice file 4 3 = .ok [1, 1, 5] := by
      rw [hbody]
      simp only [List.append_assoc]
      exact slice_append (pre := word 0x4d494458) (mid := [1, 1, 5]) (off := 4) (len := 3) rfl rfl
    obtain ⟨w, r3, hw⟩ : ∃ w, rd32 file 8 = .ok w ∧ w.toNat = nl.length := by
      refine rd32_word (pre := word 0x4d494458 ++ [1, 1, 5, 0]) (post := chunkHeader 0x504e414d 84 ++ chunkHeader 0x4f494446 o1 ++ chunkHeader 0x4f49444c (o1 + 1024) ++ chunkHeader 0x4f4f4646 o3 ++ chunkHeader 0x4c4f4646 o4 ++ chunkHeader 0 (o4 + large.length) ++ names ++ fan.flatMap word ++ lookup ++ offsets ++ large ++ s) (n := nl.length) (pos := 8) ?_ rfl hcount
      rw [hbody]; simp only [List.append_assoc]
    have r2 : slice file (file.length - osz) osz = .ok s := by
      rw [hlen, Nat.add_sub_cancel]
      rw [hbody]
      have := slice_append (pre := (word 0x4d494458 ++ [1, 1, 5, 0] ++ word nl.length ++ chunkHeader 0x504e414d 84 ++ chunkHeader 0x4f494446 o1 ++ chunkHeader 0x4f49444c (o1 + 1024) ++ chunkHeader 0x4f4f4646 o3 ++ chunkHeader 0x4c4f4646 o4 ++ chunkHeader 0 (o4 + large.length)) ++ names ++ fan.flatMap word ++ lookup ++ offsets ++ large) (mid := s) (post := []) (off := o4 + large.length) (len := osz) (by
        simp only [List.length_append, word_len, chunkHeader_len, hfl, List.length_cons, List.length_nil]
        omega) hs
      rw [List.append_nil (as := _ ++ s)] at this
      exact this
    rw [r0, bind_ok, r1, bind_ok, r3, bind_ok]
    dsimp only
    have e4 : (([1, 1, 5] : Bytes).getD 2 0).toNat = 5 := rfl
    rw [if_neg (by decide), e4, if_neg (by omega), if_neg (by omega), r2, bind_ok]
    have c1 := chunk_step (file := file) (pre := word 0x4d494458 ++ [1, 1, 5, 0] ++ word nl.length) (trailer := file.length - osz) (n := 4) (id := 0x504e414d) (off := 84) (lastOff := 84) (last := none)
      (cs := fun _ => {}) (k := .names) (pos := 12) (by rw [hbody]; simp only [List.append_assoc]; rfl) rfl (by omega) (by omega) (by omega) rfl
    have c2 := fun cs last => chunk_step (file := file) (pre := word 0x4d494458 ++ [1, 1, 5, 0] ++ word nl.length ++ chunkHeader 0x504e414d 84) (trailer := file.length - osz) (n := 3) (id := 0x4f494446) (off := o1) (lastOff := 84) (last := last)
      (cs := cs) (k := .fanout) (pos := 24) (by rw [hbody]; simp only [List.append_assoc]; rfl) rfl (by omega) (by omega) (by omega) rfl
    have c3 := fun cs last => chunk_step (file := file) (pre := word 0x4d494458 ++ [1, 1, 5, 0] ++ word nl.length ++ chunkHeader 0x504e414d 84 ++ chunkHeader 0x4f494446 o1) (trailer := file.length - osz) (n := 2) (id := 0x4f49444c) (off := (o1 + 1024)) (lastOff := o1) (last := last)
      (cs := cs) (k := .lookup) (pos := 36) (by rw [hbody]; simp only [List.append_assoc]; rfl) rfl (by omega) (by omega) (by omega) rfl
    have c4 := fun cs last => chunk_step (file := file) (pre := word 0x4d494458 ++ [1, 1, 5, 0] ++ word nl.length ++ chunkHeader 0x504e414d 84 ++ chunkHeader 0x4f494446 o1 ++ chunkHeader 0x4f49444c (o1 + 1024)) (trailer := file.length - osz) (n := 1) (id := 0x4f4f4646) (off := o3) (lastOff := (o1 + 1024)) (last := last)
      (cs := cs) (k := .offsets) (pos := 48) (by rw [hbody]; simp only [List.append_assoc]; rfl) rfl (by omega) (by omega) (by omega) rfl
    have c5 := fun cs last => chunk_step (file := file) (pre := word 0x4d494458 ++ [1, 1, 5, 0] ++ word nl.length ++ chunkHeader 0x504e414d 84 ++ chunkHeader 0x4f494446 o1 ++ chunkHeader 0x4f49444c (o1 + 1024) ++ chunkHeader 0x4f4f4646 o3) (trailer := file.length - osz) (n := 0) (id := 0x4c4f4646) (off := o4) (lastOff := o3) (last := last)
      (cs := cs) (k := .large) (pos := 60) (by rw [hbody]; simp only [List.append_assoc]; rfl) rfl (by omega) (by omega) (by omega) rfl
    rw [show 12 + (1 + 5) * 12 = 84 from rfl, c1, c2, c3, c4, c5, chunkLoop, bind_ok]
    dsimp only
    rw [fin file _ _ 84 w hw hbody (by simp [word_len, chunkHeader_len]) (by omega)]
    · simp only [hA1]
    · simp [setLen, setOff, ← hA1]
    · simp [setLen, setOff, hA1]
    · simp [setLen, setOff, hA1, ← hA3]
    · simp [setLen, setOff, hA1, hlen, ← hA3, ← hA4]
    · rw [if_pos hz]
      simp [setLen, setOff, hlen, hA1, ← hA3, ← hA4]
  · -- four chunks
    have hnil : large = [] := List.length_eq_zero_iff.mp (by omega)
    subst hnil
    have hst : start [] = 72 := rfl
    rw [hst]
    generalize hA1 : 72 + names.length = o1
    generalize hA3 : o1 + 1024 + lookup.length = o3
    generalize hA4 : o3 + offsets.length = o4
    have hbody : body nl.length names fan lookup offsets [] ++ s =
        (word 0x4d494458 ++ [1, 1, 4, 0] ++ word nl.length ++ chunkHeader 0x504e414d 72 ++ chunkHeader 0x4f494446 o1 ++ chunkHeader 0x4f49444c (o1 + 1024) ++ chunkHeader 0x4f4f4646 o3 ++ chunkHeader 0 o4) ++ names ++ fan.flatMap word ++ lookup ++ offsets ++ [] ++ s := by
      unfold body
      rw [← hA4, ← hA3, ← hA1]
      simp only [List.length_nil, if_neg (Nat.lt_irrefl 0), List.append_nil]
      rfl
    rw [hlookup] at hA3
    rw [hoffsets] at hA4
    refine ⟨_, ?_, hbody, ?_⟩
    · simp [word_len, chunkHeader_len]
    generalize body nl.length names fan lookup offsets [] ++ s = file at hbody
    have hlen : file.length = o4 + osz := by
      rw [hbody]
      simp only [List.length_append, word_len, chunkHeader_len, hfl, List.length_cons, List.length_nil, hs]
      omega
    unfold parse
    rw [if_neg (by omega)]
    have r0 : rd32 file 0 = .ok 0x4d494458 := by
      rw [hbody]
      simp only [List.append_assoc]
      exact rd32_at (pre := []) rfl
    have r1 : slice file 4 3 = .ok [1, 1, 4] := by
      rw [hbody]
      simp only [List.append_assoc]
      exact slice_append (pre := word 0x4d494458) (mid := [1, 1, 4]) (off := 4) (len := 3) rfl rfl
    obtain ⟨w, r3, hw⟩ : ∃ w, rd32 file 8 = .ok w ∧ w.toNat = nl.length := by
      refine rd32_word (pre := word 0x4d494458 ++ [1, 1, 4, 0]) (post := chunkHeader 0x504e414d 72 ++ chunkHeader 0x4f494446 o1 ++ chunkHeader 0x4f49444c (o1 + 1024) ++ chunkHeader 0x4f4f4646 o3 ++ chunkHeader 0 o4 ++ names ++ fan.flatMap word ++ lookup ++ offsets ++ [] ++ s) (n := nl.length) (pos := 8) ?_ rfl hcount
      rw [hbody]; simp only [List.append_assoc]
    have r2 : slice file (file.length - osz) osz = .ok s := by
      rw [hlen, Nat.add_sub_cancel]
      rw [hbody]
      have := slice_append (pre := (word 0x4d494458 ++ [1, 1, 4, 0] ++ word nl.length ++ chunkHeader 0x504e414d 72 ++ chunkHeader 0x4f494446 o1 ++ chunkHeader 0x4f49444c (o1 + 1024) ++ chunkHeader 0x4f4f4646 o3 ++ chunkHeader 0 o4) ++ names ++ fan.flatMap word ++ lookup ++ offsets ++ []) (mid := s) (post := []) (off := o4) (len := osz) (by
        simp only [List.length_append, word_len, chunkHeader_len, hfl, List.length_cons, List.length_nil]
        omega) hs
      rw [List.append_nil (as := _ ++ s)] at this
      exact this
    rw [r0, bind_ok, r1, bind_ok, r3, bind_ok]
    dsimp only
    have e4 : (([1, 1, 4] : Bytes).getD 2 0).toNat = 4 := rfl
    rw [if_neg (by decide), e4, if_neg (by omega), if_neg (by omega), r2, bind_ok]
    have c1 := chunk_step (file := file) (pre := word 0x4d494458 ++ [1, 1, 4, 0] ++ word nl.length) (trailer := file.length - osz) (n := 3) (id := 0x504e414d) (off := 72) (lastOff := 72) (last := none)
      (cs := fun _ => {}) (k := .names) (pos := 12) (by rw [hbody]; simp only [List.append_assoc]; rfl) rfl (by omega) (by omega) (by omega) rfl
    have c2 := fun cs last => chunk_step (file := file) (pre := word 0x4d494458 ++ [1, 1, 4, 0] ++ word nl.length ++ chunkHeader 0x504e414d 72) (trailer := file.length - osz) (n := 2) (id := 0x4f494446) (off := o1) (lastOff := 72) (last := last)
      (cs := cs) (k := .fanout) (pos := 24) (by rw [hbody]; simp only [List.append_assoc]; rfl) rfl (by omega) (by omega) (by omega) rfl
    have c3 := fun cs last => chunk_step (file := file) (pre := word 0x4d494458 ++ [1, 1, 4, 0] ++ word nl.length ++ chunkHeader 0x504e414d 72 ++ chunkHeader 0x4f494446 o1) (trailer := file.length - osz) (n := 1) (id := 0x4f49444c) (off := (o1 + 1024)) (lastOff := o1) (last := last)
      (cs := cs) (k := .lookup) (pos := 36) (by rw [hbody]; simp only [List.append_assoc]; rfl) rfl (by omega) (by omega) (by omega) rfl
    have c4 := fun cs last => chunk_step (file := file) (pre := word 0x4d494458 ++ [1, 1, 4, 0] ++ word nl.length ++ chunkHeader 0x504e414d 72 ++ chunkHeader 0x4f494446 o1 ++ chunkHeader 0x4f49444c (o1 + 1024)) (trailer := file.length - osz) (n := 0) (id := 0x4f4f4646) (off := o3) (lastOff := (o1 + 1024)) (last := last)
      (cs := cs) (k := .offsets) (pos := 48) (by rw [hbody]; simp only [List.append_assoc]; rfl) rfl (by omega) (by omega) (by omega) rfl
    rw [show 12 + (1 + 4) * 12 = 72 from rfl, c1, c2, c3, c4, chunkLoop, bind_ok]
    dsimp only
    rw [fin file _ _ 72 w hw hbody (by simp [word_len, chunkHeader_len]) (by omega)]
    · simp only [hA1]
    · simp [setLen, setOff, ← hA1]
    · simp [setLen, setOff, hA1]
    · simp [setLen, setOff, hA1, ← hA3]
    · simp [setLen, setOff, hA1, hlen, ← hA3, ← hA4]
    · rw [if_neg (by simp)]
      simp [setLen, setOff]

end Verif.Midx
