import Verif.CommitGraph.Lemmas1
/-! # Lemmas: accepted commit-graph files -/
namespace Verif.CommitGraph
open PackIdx (bind_ok_inv bind_ok bind_err fanAt fanLoop fanLoop_ok Table TableOK find_safe find_right lt_count head_mono lt_of_head ENOTFOUND)
open PackIdx.Spec Verif.B

theorem chunkLoop_safe {file : Bytes} {trailer : Nat} : ∀ n pos lastOff last cs, pos + n * 12 ≤ file.length →
    chunkLoop file trailer n pos lastOff last cs ≠ .ub := by
  intro n
  induction n with
  | zero => intro pos lastOff last cs _; rw [chunkLoop]; exact fun h => nomatch h
  | succ n ih =>
    intro pos lastOff last cs hp
    have hmul : (n + 1) * 12 = n * 12 + 12 := Nat.succ_mul n 12
    obtain ⟨a, ha⟩ := rd32_ok (b := file) (off := pos + 4) (by omega)
    obtain ⟨b, hb⟩ := rd32_ok (b := file) (off := pos + 8) (by omega)
    obtain ⟨c, hc⟩ := rd32_ok (b := file) (off := pos) (by omega)
    rw [chunkLoop, ha, bind_ok, hb, bind_ok]
    dsimp only
    split
    · exact fun h => nomatch h
    split
    · exact fun h => nomatch h
    rw [hc, bind_ok]
    cases kindOf c with
    | none => exact fun h => nomatch h
    | some k => exact ih _ _ _ _ (by omega)

theorem fanLoop_safe {file : Bytes} {base : Nat} (h : base + 1024 ≤ file.length) : ∀ k nr, k ≤ 256 → fanLoop file base k nr ≠ .ub := by
  intro k
  induction k with
  | zero => intro nr _; rw [fanLoop]; exact fun h => nomatch h
  | succ k ih =>
    intro nr hk
    obtain ⟨a, ha⟩ := rd32_ok (b := file) (off := base + 4 * (256 - (k + 1))) (by omega)
    rw [fanLoop, ha, bind_ok]
    split
    · exact fun h => nomatch h
    · exact ih _ (by omega)

theorem lookupLoop_safe {osz : Nat} {file : Bytes} : ∀ n pos prev, prev.length = osz → pos + n * osz ≤ file.length →
    lookupLoop osz file n pos prev ≠ .ub := by
  intro n
  induction n with
  | zero => intro pos prev _ _; rw [lookupLoop]; exact fun h => nomatch h
  | succ n ih =>
    intro pos prev hp hle
    have hmul : (n + 1) * osz = n * osz + osz := Nat.succ_mul n osz
    obtain ⟨oid, ho, hol⟩ := slice_len (b := file) (off := pos) (len := osz) (by omega)
    rw [lookupLoop, ho, bind_ok]
    unfold Oid.cmp
    rw [memcmp_bcmp osz _ _ hp hol, bind_ok]
    split
    · exact fun h => nomatch h
    · exact ih _ _ hol (by omega)

/-- what is known about an accepted file -/
structure Acc (osz : Nat) (f : File) : Prop where
  fan : ∀ j < 256, (∃ v, rd32 f.file (f.fanout + 4 * j) = .ok v ∧ v.toNat = fanAt f.file f.fanout j) ∧ fanAt f.file f.fanout j ≤ f.num
  mono : ∀ i j, i ≤ j → j < 256 → fanAt f.file f.fanout i ≤ fanAt f.file f.fanout j
  table : TableOK osz ⟨f.file, f.lookup, osz⟩ (ids osz f)
  sorted : (ids osz f).Pairwise (· < ·)
  notNull : ∀ id ∈ ids osz f, List.replicate osz 0 < id
  data : f.data + f.num * (osz + 16) ≤ f.file.length
  edges : f.numEdges ≠ 0 → f.edges + 4 * f.numEdges + osz ≤ f.file.length

theorem ids_length (osz : Nat) (f : File) : (ids osz f).length = f.num := by unfold ids; simp

/-- the chunks lie within the file, before the checksum -/
theorem chunks_in {file : Bytes} {trailer n pos lastOff : Nat} {r : Nat × Option Kind × Chunks}
    (h : chunkLoop file trailer n pos lastOff none (fun _ => {}) = .ok r) (hl : lastOff ≤ trailer) (k : Kind) :
    (setLen r.2.2 r.2.1 (trailer - r.1) k).off + (setLen r.2.2 r.2.1 (trailer - r.1) k).len ≤ trailer := by
  obtain ⟨h1, h2, h3⟩ := chunkLoop_ok n pos lastOff none _ r h (fun k _ => Nat.zero_le _) (fun k hk => nomatch hk) (fun _ => .inl rfl) (fun _ => hl)
  unfold setLen
  cases hr : r.2.1 with
  | none =>
    have := h2 k (by rw [hr]; simp)
    dsimp only
    omega
  | some l =>
    dsimp only
    by_cases hkl : k = l
    · rw [if_pos hkl]
      have := h3 k (by rw [hr, hkl])
      dsimp only
      omega
    · rw [if_neg hkl]
      have := h2 k (by rw [hr]; simpa using fun e => hkl e.symm)
      omega

theorem parse_spec {osz : Nat} {file : Bytes} : parse osz file ≠ .ub ∧ ∀ f, parse osz file = .ok f →
    f.file = file ∧ Acc osz f ∧ osz ≤ file.length ∧ f.checksum = file.drop (file.length - osz) := by
  unfold parse
  split
  · exact ⟨(fun h => nomatch h), fun f h => nomatch h⟩
  rename_i hsz
  obtain ⟨sig, hsig⟩ := rd32_ok (b := file) (off := 0) (by omega)
  rw [hsig, bind_ok]
  by_cases h7 : file.length < 7
  · -- the header is at least as long as what is read of it
    omega
  obtain ⟨hdr, hhdr, -⟩ := slice_len (b := file) (off := 4) (len := 3) (by omega)
  rw [hhdr, bind_ok]
  dsimp only
  split
  · exact ⟨(fun h => nomatch h), fun f h => nomatch h⟩
  split
  · exact ⟨(fun h => nomatch h), fun f h => nomatch h⟩
  generalize (hdr.getD 2 0).toNat = chunks
  split
  · exact ⟨(fun h => nomatch h), fun f h => nomatch h⟩
  rename_i htr
  obtain ⟨sum, hsum, hsuml⟩ := slice_len (b := file) (off := file.length - osz) (len := osz) (by omega)
  rw [hsum, bind_ok]
  have hs1 : sum = file.drop (file.length - osz) := by
    unfold slice at hsum
    rw [if_pos (by omega)] at hsum
    rw [← Res.ok.inj hsum, List.take_of_length_le]
    simp; omega
  have hsafe := chunkLoop_safe (file := file) (trailer := file.length - osz) chunks 8 (8 + (1 + chunks) * 12) none (fun _ => {}) (by omega)
  cases hc : chunkLoop file (file.length - osz) chunks 8 (8 + (1 + chunks) * 12) none (fun _ => {}) with
  | ub => exact absurd hc hsafe
  | err e => exact ⟨(fun h => nomatch h), fun f h => nomatch h⟩
  | ok r =>
    rw [bind_ok]
    have hin := chunks_in hc (by omega)
    generalize setLen r.2.2 r.2.1 (file.length - osz - r.1) = cs at hin
    have i1 := hin .fanout
    have i2 := hin .lookup
    have i3 := hin .data
    have i4 := hin .edges
    generalize cs .fanout = c1 at i1
    generalize cs .lookup = c2 at i2
    generalize cs .data = c3 at i3
    generalize cs .edges = c4 at i4
    unfold parseFanout
    split
    · exact ⟨(fun h => nomatch h), fun f h => nomatch h⟩
    split
    · exact ⟨(fun h => nomatch h), fun f h => nomatch h⟩
    split
    · exact ⟨(fun h => nomatch h), fun f h => nomatch h⟩
    rename_i hl1
    have hf1 := fanLoop_safe (file := file) (base := c1.off) (by omega) 256 0 (Nat.le_refl _)
    cases hfl : fanLoop file c1.off 256 0 with
    | ub => exact absurd hfl hf1
    | err e => exact ⟨(fun h => nomatch h), fun f h => nomatch h⟩
    | ok num =>
      rw [bind_ok]
      obtain ⟨-, g2, g3, g4⟩ := fanLoop_ok 256 0 num (Nat.le_refl _) hfl
      unfold parseLookup
      split
      · exact ⟨(fun h => nomatch h), fun f h => nomatch h⟩
      split
      · exact ⟨(fun h => nomatch h), fun f h => nomatch h⟩
      split
      · exact ⟨(fun h => nomatch h), fun f h => nomatch h⟩
      rename_i hl2
      have hl2' : c2.len = num * osz := by omega
      have hll := lookupLoop_safe (osz := osz) (file := file) num c2.off (List.replicate osz 0) (by simp) (by omega)
      cases hlk : lookupLoop osz file num c2.off (List.replicate osz 0) with
      | ub => exact absurd hlk hll
      | err e => exact ⟨(fun h => nomatch h), fun f h => nomatch h⟩
      | ok u =>
        rw [bind_ok]
        obtain ⟨l, k1, k2, k3⟩ := lookupLoop_ok num c2.off (List.replicate osz 0) (by simp) hlk (by omega)
        unfold parseData
        split
        · exact ⟨(fun h => nomatch h), fun f h => nomatch h⟩
        split
        · exact ⟨(fun h => nomatch h), fun f h => nomatch h⟩
        split
        · exact ⟨(fun h => nomatch h), fun f h => nomatch h⟩
        rename_i hl3
        rw [bind_ok]
        have key : ∀ e : Nat × Nat, (e.2 ≠ 0 → e.1 + 4 * e.2 + osz ≤ file.length) → ∀ f,
            Res.ok (⟨file, c1.off, num, c2.off, c3.off, e.1, e.2, sum⟩ : File) = .ok f →
            f.file = file ∧ Acc osz f ∧ osz ≤ file.length ∧ f.checksum = file.drop (file.length - osz) := by
          intro e he f hf
          have := Res.ok.inj hf
          subst this
          have hids : ids osz ⟨file, c1.off, num, c2.off, c3.off, e.1, e.2, sum⟩ = l := by
            unfold ids
            refine List.ext_getElem (by simp [k1]) fun i h1 h2 => ?_
            rw [List.getElem_map, List.getElem_range]
            unfold idAt
            dsimp only
            rw [(k2 i h2).1]
          rw [List.pairwise_cons] at k3
          refine ⟨rfl, ⟨fun j hj => ?_, fun i j hij hj => g3 i j (by omega) hij hj, ⟨?_, ?_⟩, ?_, ?_, ?_, he⟩, by omega, hs1⟩
          · obtain ⟨e1, -, e3⟩ := g2 j (by omega) hj
            exact ⟨e1, e3⟩
          · rw [hids]
            exact fun i hi => (k2 i hi).1
          · rw [hids]
            intro id hid
            obtain ⟨i, hi, rfl⟩ := List.getElem_of_mem hid
            exact (k2 i hi).2
          · rw [hids]; exact k3.2
          · rw [hids]; exact k3.1
          · dsimp only; omega
        unfold parseEdges
        split
        · exact ⟨(fun h => nomatch h), key (0, 0) fun h => absurd rfl h⟩
        split
        · exact ⟨(fun h => nomatch h), fun f h => nomatch h⟩
        · exact ⟨(fun h => nomatch h), key (c4.off, c4.len / 4) fun _ => by dsimp only; omega⟩

/-- counting extra parents stays within the list -/
theorem countExtra_ok {osz : Nat} {f : File} (ha : Acc osz f) : ∀ n pos count, pos + n ≤ f.numEdges → (n ≠ 0 → f.numEdges ≠ 0) →
    ∃ m, countExtra f n pos count = .ok m ∧ count ≤ m ∧ m ≤ count + n := by
  intro n
  induction n with
  | zero => intro pos count _ _; exact ⟨count, rfl, by omega, by omega⟩
  | succ n ih =>
    intro pos count h h0
    have := ha.edges (h0 (by omega))
    obtain ⟨w, hw⟩ := rd32_ok (b := f.file) (off := f.edges + pos * 4) (by omega)
    rw [countExtra, hw, bind_ok]
    split
    · obtain ⟨m, h1, h2, h3⟩ := ih (pos + 1) (count + 1) (by omega) (fun _ => h0 (by omega))
      exact ⟨m, h1, by omega, by omega⟩
    · exact ⟨count, rfl, by omega, by omega⟩

/-- an entry that was read from the file -/
structure EntryOK (f : File) (e : Entry) : Prop where
  many : e.count ≥ 3 → e.extra ≠ none
  extra : ∀ x, e.extra = some x → x < f.numEdges ∧ x + e.count ≤ f.numEdges + 2

theorem get_ok {osz : Nat} {f : File} (ha : Acc osz f) (pos : Nat) :
    getByIndex osz f pos ≠ .ub ∧ ∀ e, getByIndex osz f pos = .ok e → EntryOK f e ∧ ∃ h : pos < (ids osz f).length, e.id = (ids osz f)[pos] := by
  unfold getByIndex
  split
  · exact ⟨(fun h => nomatch h), fun e h => nomatch h⟩
  rename_i hp
  have hd := ha.data
  have hlt : (pos + 1) * (osz + 16) ≤ f.num * (osz + 16) := Nat.mul_le_mul_right _ (by omega)
  rw [Nat.succ_mul] at hlt
  have hpi : pos < (ids osz f).length := by rw [ids_length]; omega
  have hid := ha.table.get pos hpi
  unfold Table.get at hid
  dsimp only at hid ⊢
  obtain ⟨tree, h1, -⟩ := slice_len (b := f.file) (off := f.data + pos * (osz + 16)) (len := osz) (by omega)
  obtain ⟨p0, h2⟩ := rd32_ok (b := f.file) (off := f.data + pos * (osz + 16) + osz) (by omega)
  obtain ⟨p1, h3⟩ := rd32_ok (b := f.file) (off := f.data + pos * (osz + 16) + osz + 4) (by omega)
  obtain ⟨g, h4⟩ := rd32_ok (b := f.file) (off := f.data + pos * (osz + 16) + osz + 8) (by omega)
  obtain ⟨lo, h5⟩ := rd32_ok (b := f.file) (off := f.data + pos * (osz + 16) + osz + 12) (by omega)
  rw [h1, bind_ok, h2, bind_ok, h3, bind_ok, h4, bind_ok, h5, bind_ok]
  have hcount : ((if p0.toNat ≠ MISSING then 1 else 0) + if p1.toNat ≠ MISSING then 1 else 0) ≤ 2 := by split <;> split <;> omega
  generalize ((if p0.toNat ≠ MISSING then 1 else 0) + if p1.toNat ≠ MISSING then 1 else 0) = count at hcount
  by_cases hp1 : p1.toNat ≥ 2 ^ 31
  · rw [if_pos hp1]
    by_cases hx : p1.toNat % 2 ^ 31 ≥ f.numEdges
    · rw [if_pos hx]; exact ⟨(fun h => nomatch h), fun e h => nomatch h⟩
    · rw [if_neg hx]
      generalize p1.toNat % 2 ^ 31 = x at hx
      obtain ⟨m, h6, h7, h8⟩ := countExtra_ok ha (f.numEdges - x) x count (by omega) (by omega)
      rw [h6, bind_ok, bind_ok, hid, bind_ok]
      refine ⟨(fun h => nomatch h), fun e h => ?_⟩
      have := Res.ok.inj h
      subst this
      refine ⟨⟨fun _ => by simp, fun y hy => ?_⟩, hpi, rfl⟩
      have : x = y := Option.some.inj hy
      subst this
      dsimp only
      omega
  · rw [if_neg hp1, bind_ok, hid, bind_ok]
    refine ⟨(fun h => nomatch h), fun e h => ?_⟩
    have := Res.ok.inj h
    subst this
    exact ⟨⟨fun h => by dsimp only at h; omega, fun y hy => nomatch hy⟩, hpi, rfl⟩

theorem parent_ok {osz : Nat} {f : File} (ha : Acc osz f) (h4 : 4 ≤ osz) {e : Entry} (he : EntryOK f e) (n : Nat) :
    entryParent osz f e n ≠ .ub ∧ ∀ e', entryParent osz f e n = .ok e' → EntryOK f e' := by
  unfold entryParent
  split
  · exact ⟨(fun h => nomatch h), fun e h => nomatch h⟩
  rename_i hn
  split
  · exact ⟨(get_ok ha _).1, fun e' h => ((get_ok ha _).2 e' h).1⟩
  split
  · exact ⟨(get_ok ha _).1, fun e' h => ((get_ok ha _).2 e' h).1⟩
  rename_i hn0 hn1
  cases hx : e.extra with
  | none => exact absurd hx (he.many (by omega))
  | some x =>
    obtain ⟨h1, h2⟩ := he.extra x hx
    have := ha.edges (by omega)
    obtain ⟨w, hw⟩ := rd32_ok (b := f.file) (off := f.edges + (x + n - 1) * 4) (by omega)
    dsimp only
    rw [hw, bind_ok]
    exact ⟨(get_ok ha _).1, fun e' h => ((get_ok ha _).2 e' h).1⟩

end Verif.CommitGraph
