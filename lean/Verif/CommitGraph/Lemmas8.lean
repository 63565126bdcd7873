import Verif.CommitGraph.Lemmas7
/-! # Lemmas: a written commit-graph is accepted -/
namespace Verif.CommitGraph
open PackIdx (bind_ok_inv bind_ok bind_err ENOTFOUND fanLoop fanAt fanLoop_of flatMap_len flatMap_split rd32_mid slice_mid)
open Verif.B

theorem fan_bytes {fan : List Nat} : (fan.flatMap word).length = fan.length * 4 := flatMap_len fun _ _ => word_len _

theorem fan_read {fan : List Nat} {file pre post : Bytes} (hf : file = pre ++ fan.flatMap word ++ post) (hlt : ∀ x ∈ fan, x < 2 ^ 32) (j : Nat) (hj : j < fan.length) :
    ∃ v, rd32 file (pre.length + 4 * j) = .ok v ∧ v.toNat = fan[j] := by
  obtain ⟨a, b, h1, h2⟩ := flatMap_split (g := word) (w := 4) (xs := fan) (fun _ _ => word_len _) hj
  exact rd32_word (pre := pre ++ a) (post := b ++ post) (by rw [hf, h1]; simp) (by simp [h2]; omega) (hlt _ (List.getElem_mem hj))

/-- the four tables -/
structure Tables (osz num : Nat) (fan : List Nat) (idl : List Bytes) (data edges : Bytes) : Prop where
  fanLen : fan.length = 256
  mono : ∀ i j (hi : i < fan.length) (hj : j < fan.length), i ≤ j → fan[i] ≤ fan[j]
  last : ∀ h : 255 < fan.length, fan[255] = num
  numLt : 0 < num ∧ num < 2 ^ 31
  idsLen : idl.length = num
  size : ∀ x ∈ idl, x.length = osz
  sorted : (List.replicate osz 0 :: idl).Pairwise (· < ·)
  dataLen : data.length = num * (osz + 16)
  edgesLen : edges.length % 4 = 0

/-- where the chunks are -/
def start (edges : Bytes) : Nat := if edges.length > 0 then 68 else 56

theorem parse_written {osz num : Nat} {fan : List Nat} {idl : List Bytes} {data edges s : Bytes} (ht : Tables osz num fan idl data edges) (h0 : 0 < osz) (h32 : osz ≤ 32)
    (hs : s.length = osz) (he : edges.length < 2 ^ 62) :
    ∃ pre, pre.length = start edges ∧ body fan (idl.flatMap fun x => x) data edges ++ s = pre ++ fan.flatMap word ++ (idl.flatMap fun x => x) ++ data ++ edges ++ s ∧
    parse osz (body fan (idl.flatMap fun x => x) data edges ++ s) =
      .ok ⟨body fan (idl.flatMap fun x => x) data edges ++ s, start edges, num, start edges + 1024, start edges + 1024 + num * osz,
        if edges.length > 0 then start edges + 1024 + num * osz + num * (osz + 16) else 0, edges.length / 4, s⟩ := by
  have hlookup : (idl.flatMap fun x => x).length = num * osz := by rw [flatMap_len (w := osz) ht.size, ht.idsLen]
  have hfl : (fan.flatMap word).length = 1024 := by rw [fan_bytes, ht.fanLen]
  have hdata := ht.dataLen
  have hmul : num * osz ≤ 2 ^ 31 * 32 := Nat.mul_le_mul (by have := ht.numLt.2; omega) h32
  have hmul2 : num * (osz + 16) ≤ 2 ^ 31 * 48 := Nat.mul_le_mul (by have := ht.numLt.2; omega) (by omega)
  have hmul3 : 1 * osz ≤ num * osz := Nat.mul_le_mul_right _ ht.numLt.1
  have hmul4 : 1 * (osz + 16) ≤ num * (osz + 16) := Nat.mul_le_mul_right _ ht.numLt.1
  have hN : ∀ f : Bytes, ∀ base, (∀ j < 256, ∃ v, rd32 f (base + 4 * j) = .ok v ∧ ∃ h : j < fan.length, v.toNat = fan[j]) → fanLoop f base 256 0 = .ok num := by
    intro f base hf
    have hfa : ∀ j < 256, ∃ h : j < fan.length, fanAt f base j = fan[j] := by
      intro j hj
      obtain ⟨v, h1, h2, h3⟩ := hf j hj
      exact ⟨h2, by unfold fanAt; rw [h1]; exact h3⟩
    have := fanLoop_of (file := f) (base := base) (fun j hj => ?_) (fun i j hij hj => ?_) 256 0 (Nat.le_refl _) (fun _ => Nat.zero_le _)
    · rw [this, if_neg (by omega)]
      obtain ⟨h1, h2⟩ := hfa 255 (by omega)
      rw [h2, ht.last h1]
    · obtain ⟨v, h1, h2, h3⟩ := hf j hj
      obtain ⟨_, h5⟩ := hfa j hj
      exact ⟨v, h1, by rw [h5]; exact h3⟩
    · obtain ⟨h1, h2⟩ := hfa i (by omega)
      obtain ⟨h3, h4⟩ := hfa j hj
      rw [h2, h4]
      exact ht.mono i j h1 h3 hij
  have hfanlt : ∀ x ∈ fan, x < 2 ^ 32 := by
    intro x hx
    obtain ⟨i, hi, rfl⟩ := List.getElem_of_mem hx
    have h255 : 255 < fan.length := by rw [ht.fanLen]; omega
    have := ht.mono i 255 hi h255 (by have := ht.fanLen; omega)
    rw [ht.last h255] at this
    have := ht.numLt.2
    omega
  -- the common part: everything after the chunk table
  have fin : ∀ (file pre : Bytes) (cs : Chunks) (st : Nat), file = pre ++ fan.flatMap word ++ (idl.flatMap fun x => x) ++ data ++ edges ++ s → pre.length = st → 0 < st →
      cs .fanout = ⟨st, 1024⟩ → cs .lookup = ⟨st + 1024, num * osz⟩ → cs .data = ⟨st + 1024 + num * osz, num * (osz + 16)⟩ →
      cs .edges = (if edges.length > 0 then ⟨st + 1024 + num * osz + num * (osz + 16), edges.length⟩ else ⟨0, 0⟩) →
      (parseFanout file (cs .fanout) >>= fun num =>
        parseLookup osz file num (cs .lookup) >>= fun _ =>
        parseData osz num (cs .data) >>= fun _ =>
        parseEdges (cs .edges) >>= fun e =>
        Res.ok (⟨file, (cs .fanout).off, num, (cs .lookup).off, (cs .data).off, e.1, e.2, s⟩ : File)) =
      .ok ⟨file, st, num, st + 1024, st + 1024 + num * osz, if edges.length > 0 then st + 1024 + num * osz + num * (osz + 16) else 0, edges.length / 4, s⟩ := by
    intro file pre cs st hf hp hst c1 c2 c3 c4
    rw [c1, c2, c3, c4]
    unfold parseFanout
    dsimp only
    rw [if_neg (by omega), if_neg (by omega), if_neg (by omega), hN file st fun j hj => ?_, bind_ok]
    · unfold parseLookup
      dsimp only
      rw [if_neg (by omega), if_neg (by omega), if_neg (by omega)]
      have := lookupLoop_of (osz := osz) (file := file) idl (pre ++ fan.flatMap word) (data ++ edges ++ s) (List.replicate osz 0) (by rw [hf]; simp) ht.size (by simp) ht.sorted
      rw [ht.idsLen, List.length_append, hp, hfl] at this
      rw [this, bind_ok]
      unfold parseData
      dsimp only
      rw [if_neg (by omega), if_neg (by omega), if_neg (by omega), bind_ok]
      unfold parseEdges
      have hmod := ht.edgesLen
      by_cases hz : edges.length > 0
      · simp only [if_pos hz]
        rw [if_neg (by omega), if_neg (by omega), bind_ok]
      · simp only [if_neg hz]
        rw [if_pos trivial, bind_ok, show edges.length / 4 = 0 by omega]
    · have hj' : j < fan.length := by rw [ht.fanLen]; exact hj
      obtain ⟨v, h1, h2⟩ := fan_read (file := file) (pre := pre) (post := (idl.flatMap fun x => x) ++ data ++ edges ++ s) (by rw [hf]; simp) hfanlt j hj'
      rw [hp] at h1
      exact ⟨v, h1, hj', h2⟩
  by_cases hz : edges.length > 0
  · -- four chunks
    have hst : start edges = 68 := by unfold start; rw [if_pos hz]
    rw [hst]
    generalize hA0 : 68 + 1024 + (idl.flatMap fun x => x).length = o2
    generalize hA1 : o2 + data.length = o3
    have hbody : body fan (idl.flatMap fun x => x) data edges ++ s =
        (word 0x43475048 ++ [1, 1, 4, 0] ++ chunkHeader 0x4f494446 68 ++ chunkHeader 0x4f49444c (68 + 1024) ++ chunkHeader 0x43444154 o2 ++ chunkHeader 0x45444745 o3 ++
          chunkHeader 0 (o3 + edges.length)) ++ fan.flatMap word ++ (idl.flatMap fun x => x) ++ data ++ edges ++ s := by
      unfold body
      simp only [if_pos hz]
      rw [← hA1, ← hA0]
      rfl
    rw [hlookup] at hA0
    rw [hdata] at hA1
    refine ⟨_, ?_, hbody, ?_⟩
    · simp [word_len, chunkHeader_len]
    generalize body fan (idl.flatMap fun x => x) data edges ++ s = file at hbody
    have hlen : file.length = o3 + edges.length + osz := by
      rw [hbody]
      simp only [List.length_append, word_len, chunkHeader_len, hfl, List.length_cons, List.length_nil, hs]
      omega
    unfold parse
    rw [if_neg (by omega)]
    have r0 : rd32 file 0 = .ok 0x43475048 := by
      rw [hbody]
      simp only [List.append_assoc]
      exact rd32_at (pre := []) rfl
    have r1 : slice file 4 3 = .ok [1, 1, 4] := by
      rw [hbody]
      simp only [List.append_assoc]
      exact slice_append (pre := word 0x43475048) (mid := [1, 1, 4]) (off := 4) (len := 3) rfl rfl
    have r2 : slice file (file.length - osz) osz = .ok s := by
      rw [hlen, Nat.add_sub_cancel]
      rw [hbody]
      have := slice_append (pre := (word 0x43475048 ++ [1, 1, 4, 0] ++ chunkHeader 0x4f494446 68 ++ chunkHeader 0x4f49444c (68 + 1024) ++ chunkHeader 0x43444154 o2 ++ chunkHeader 0x45444745 o3 ++
          chunkHeader 0 (o3 + edges.length)) ++ fan.flatMap word ++ (idl.flatMap fun x => x) ++ data ++ edges) (mid := s) (post := []) (off := o3 + edges.length) (len := osz) (by
        simp only [List.length_append, word_len, chunkHeader_len, hfl, List.length_cons, List.length_nil]
        omega) hs
      rw [List.append_nil] at this
      exact this
    rw [r0, bind_ok, r1, bind_ok]
    dsimp only
    have e4 : (([1, 1, 4] : Bytes).getD 2 0).toNat = 4 := rfl
    rw [if_neg (by decide), e4, if_neg (by omega), if_neg (by omega), r2, bind_ok]
    have c1 := chunk_step (file := file) (pre := word 0x43475048 ++ [1, 1, 4, 0]) (trailer := file.length - osz) (n := 3) (id := 0x4f494446) (off := 68) (lastOff := 68) (last := none)
      (cs := fun _ => {}) (k := .fanout) (pos := 8) (by rw [hbody]; simp only [List.append_assoc]; rfl) rfl (by omega) (by omega) (by omega) rfl
    have c2 := fun cs last => chunk_step (file := file) (pre := word 0x43475048 ++ [1, 1, 4, 0] ++ chunkHeader 0x4f494446 68) (trailer := file.length - osz) (n := 2) (id := 0x4f49444c) (off := 68 + 1024) (lastOff := 68) (last := last)
      (cs := cs) (k := .lookup) (pos := 20) (by rw [hbody]; simp only [List.append_assoc]; rfl) rfl (by omega) (by omega) (by omega) rfl
    have c3 := fun cs last => chunk_step (file := file) (pre := word 0x43475048 ++ [1, 1, 4, 0] ++ chunkHeader 0x4f494446 68 ++ chunkHeader 0x4f49444c (68 + 1024)) (trailer := file.length - osz) (n := 1) (id := 0x43444154) (off := o2) (lastOff := 68 + 1024) (last := last)
      (cs := cs) (k := .data) (pos := 32) (by rw [hbody]; simp only [List.append_assoc]; rfl) rfl (by omega) (by omega) (by omega) rfl
    have c4 := fun cs last => chunk_step (file := file) (pre := word 0x43475048 ++ [1, 1, 4, 0] ++ chunkHeader 0x4f494446 68 ++ chunkHeader 0x4f49444c (68 + 1024) ++ chunkHeader 0x43444154 o2) (trailer := file.length - osz) (n := 0) (id := 0x45444745) (off := o3) (lastOff := o2) (last := last)
      (cs := cs) (k := .edges) (pos := 44) (by rw [hbody]; simp only [List.append_assoc]; rfl) rfl (by omega) (by omega) (by omega) rfl
    rw [show 8 + (1 + 4) * 12 = 68 from rfl, c1, c2, c3, c4, chunkLoop, bind_ok]
    dsimp only
    rw [fin file _ _ 68 hbody (by simp [word_len, chunkHeader_len]) (by omega)]
    · simp [setLen, setOff]
    · simp [setLen, setOff, ← hA0]
    · simp [setLen, setOff, ← hA0, ← hA1]
    · rw [if_pos hz]
      simp [setLen, setOff, hlen, ← hA0, ← hA1]
  · -- three chunks
    have hnil : edges = [] := List.length_eq_zero_iff.mp (by omega)
    subst hnil
    have hst : start [] = 56 := rfl
    rw [hst]
    generalize hA0 : 56 + 1024 + (idl.flatMap fun x => x).length = o2
    generalize hA1 : o2 + data.length = o3
    have hbody : body fan (idl.flatMap fun x => x) data [] ++ s =
        (word 0x43475048 ++ [1, 1, 3, 0] ++ chunkHeader 0x4f494446 56 ++ chunkHeader 0x4f49444c (56 + 1024) ++ chunkHeader 0x43444154 o2 ++
          chunkHeader 0 o3) ++ fan.flatMap word ++ (idl.flatMap fun x => x) ++ data ++ [] ++ s := by
      unfold body
      rw [← hA1, ← hA0]
      simp only [List.length_nil, if_neg (Nat.lt_irrefl 0), List.append_nil]
      rfl
    rw [hlookup] at hA0
    rw [hdata] at hA1
    refine ⟨_, ?_, hbody, ?_⟩
    · simp [word_len, chunkHeader_len]
    generalize body fan (idl.flatMap fun x => x) data [] ++ s = file at hbody
    have hlen : file.length = o3 + osz := by
      rw [hbody]
      simp only [List.length_append, word_len, chunkHeader_len, hfl, List.length_cons, List.length_nil, hs]
      omega
    unfold parse
    rw [if_neg (by omega)]
    have r0 : rd32 file 0 = .ok 0x43475048 := by
      rw [hbody]
      simp only [List.append_assoc]
      exact rd32_at (pre := []) rfl
    have r1 : slice file 4 3 = .ok [1, 1, 3] := by
      rw [hbody]
      simp only [List.append_assoc]
      exact slice_append (pre := word 0x43475048) (mid := [1, 1, 3]) (off := 4) (len := 3) rfl rfl
    have r2 : slice file (file.length - osz) osz = .ok s := by
      rw [hlen, Nat.add_sub_cancel]
      rw [hbody]
      have := slice_append (pre := (word 0x43475048 ++ [1, 1, 3, 0] ++ chunkHeader 0x4f494446 56 ++ chunkHeader 0x4f49444c (56 + 1024) ++ chunkHeader 0x43444154 o2 ++
          chunkHeader 0 o3) ++ fan.flatMap word ++ (idl.flatMap fun x => x) ++ data ++ []) (mid := s) (post := []) (off := o3) (len := osz) (by
        simp only [List.length_append, word_len, chunkHeader_len, hfl, List.length_cons, List.length_nil]
        omega) hs
      rw [List.append_nil (as := _ ++ s)] at this
      exact this
    rw [r0, bind_ok, r1, bind_ok]
    dsimp only
    have e4 : (([1, 1, 3] : Bytes).getD 2 0).toNat = 3 := rfl
    rw [if_neg (by decide), e4, if_neg (by omega), if_neg (by omega), r2, bind_ok]
    have c1 := chunk_step (file := file) (pre := word 0x43475048 ++ [1, 1, 3, 0]) (trailer := file.length - osz) (n := 2) (id := 0x4f494446) (off := 56) (lastOff := 56) (last := none)
      (cs := fun _ => {}) (k := .fanout) (pos := 8) (by rw [hbody]; simp only [List.append_assoc]; rfl) rfl (by omega) (by omega) (by omega) rfl
    have c2 := fun cs last => chunk_step (file := file) (pre := word 0x43475048 ++ [1, 1, 3, 0] ++ chunkHeader 0x4f494446 56) (trailer := file.length - osz) (n := 1) (id := 0x4f49444c) (off := 56 + 1024) (lastOff := 56) (last := last)
      (cs := cs) (k := .lookup) (pos := 20) (by rw [hbody]; simp only [List.append_assoc]; rfl) rfl (by omega) (by omega) (by omega) rfl
    have c3 := fun cs last => chunk_step (file := file) (pre := word 0x43475048 ++ [1, 1, 3, 0] ++ chunkHeader 0x4f494446 56 ++ chunkHeader 0x4f49444c (56 + 1024)) (trailer := file.length - osz) (n := 0) (id := 0x43444154) (off := o2) (lastOff := 56 + 1024) (last := last)
      (cs := cs) (k := .data) (pos := 32) (by rw [hbody]; simp only [List.append_assoc]; rfl) rfl (by omega) (by omega) (by omega) rfl
    rw [show 8 + (1 + 3) * 12 = 56 from rfl, c1, c2, c3, chunkLoop, bind_ok]
    dsimp only
    rw [fin file _ _ 56 hbody (by simp [word_len, chunkHeader_len]) (by omega)]
    · simp [setLen, setOff]
    · simp [setLen, setOff, ← hA0]
    · simp [setLen, setOff, hlen, ← hA0, ← hA1]
    · rw [if_neg (by simp)]
      simp [setLen, setOff]

end Verif.CommitGraph
