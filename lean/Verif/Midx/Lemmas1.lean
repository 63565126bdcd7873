import Verif.Midx.Spec
import Verif.CommitGraph.Lemmas3
/-! # Lemmas: reading multi-pack-indexes -/
namespace Verif.Midx
open PackIdx (bind_ok_inv bind_ok bind_err fanAt fanLoop fanLoop_ok Table TableOK find_safe find_right lt_count head_mono lt_of_head ENOTFOUND EAMBIGUOUS)
open CommitGraph (fanLoop_safe)
open PackIdx.Spec Spec Verif.B

/-- what is known about the chunks after the loop -/
theorem chunkLoop_ok {file : Bytes} {trailer : Nat} : ∀ n pos lastOff last cs r, chunkLoop file trailer n pos lastOff last cs = .ok r →
    (∀ k, last ≠ some k → (cs k).off + (cs k).len ≤ lastOff) → (∀ k, last = some k → (cs k).off = lastOff) → (0 < n → last = none ∨ lastOff < trailer) →
    (n = 0 → lastOff ≤ trailer) →
    r.1 ≤ trailer ∧ (∀ k, r.2.1 ≠ some k → (r.2.2 k).off + (r.2.2 k).len ≤ r.1) ∧ (∀ k, r.2.1 = some k → (r.2.2 k).off = r.1) := by
  intro n
  induction n with
  | zero =>
    intro pos lastOff last cs r h h1 h2 h3 h4
    rw [chunkLoop] at h
    have := Res.ok.inj h
    subst this
    exact ⟨h4 rfl, h1, h2⟩
  | succ n ih =>
    intro pos lastOff last cs r h h1 h2 h3 h4
    rw [chunkLoop] at h
    obtain ⟨id, -, h⟩ := bind_ok_inv h
    obtain ⟨hh, -, h⟩ := bind_ok_inv h
    obtain ⟨ll, -, h⟩ := bind_ok_inv h
    split at h
    · cases h
    dsimp only at h
    generalize hh.toNat * 2 ^ 32 + ll.toNat = off at h
    split at h
    · cases h
    split at h
    · cases h
    rename_i ha hb
    · generalize kindOf id = k at h
      refine ih _ _ _ _ _ h (fun j hj => ?_) (fun j hj => ?_) (fun _ => .inr (by omega)) (fun _ => by omega)
      · have hne : j ≠ k := fun e => hj (by rw [e])
        unfold setOff
        rw [if_neg hne]
        cases last with
        | none =>
          have := h1 j (by simp)
          unfold setLen
          dsimp only
          omega
        | some l =>
          unfold setLen
          dsimp only
          by_cases hjl : j = l
          · rw [if_pos hjl]
            have := h2 j (by rw [hjl])
            dsimp only
            omega
          · rw [if_neg hjl]
            have := h1 j (by simpa using fun e => hjl e.symm)
            omega
      · have : j = k := by simpa using hj.symm
        subst this
        unfold setOff
        rw [if_pos rfl]

theorem chunkLoop_safe {file : Bytes} {trailer : Nat} : ∀ n pos lastOff last cs, pos + n * 12 ≤ file.length →
    chunkLoop file trailer n pos lastOff last cs ≠ .ub := by
  intro n
  induction n with
  | zero => intro pos lastOff last cs _; rw [chunkLoop]; exact fun h => nomatch h
  | succ n ih =>
    intro pos lastOff last cs hp
    have hmul : (n + 1) * 12 = n * 12 + 12 := Nat.succ_mul n 12
    obtain ⟨a, ha⟩ := rd32_ok (b := file) (off := pos + 4) (by omega)
    obtain ⟨b, hb⟩ := rd32_ok (b := file) (off := pos + 8) (by omega)
    obtain ⟨c, hc⟩ := rd32_ok (b := file) (off := pos) (by omega)
    rw [chunkLoop, hc, bind_ok, ha, bind_ok, hb, bind_ok]
    dsimp only
    split
    · exact fun h => nomatch h
    split
    · exact fun h => nomatch h
    split
    · exact fun h => nomatch h
    exact ih _ _ _ _ (by omega)

/-- the chunks lie within the file, before the checksum -/
theorem chunks_in {file : Bytes} {trailer n pos lastOff : Nat} {r : Nat × Option Kind × Chunks}
    (h : chunkLoop file trailer n pos lastOff none (fun _ => {}) = .ok r) (hl : lastOff ≤ trailer) (k : Kind) :
    (setLen r.2.2 r.2.1 (trailer - r.1) k).off + (setLen r.2.2 r.2.1 (trailer - r.1) k).len ≤ trailer := by
  obtain ⟨h1, h2, h3⟩ := chunkLoop_ok n pos lastOff none _ r h (fun k _ => Nat.zero_le _) (fun k hk => nomatch hk) (fun _ => .inl rfl) (fun _ => hl)
  unfold setLen
  cases hr : r.2.1 with
  | none =>
    have := h2 k (by rw [hr]; simp)
    dsimp only
    omega
  | some l =>
    dsimp only
    by_cases hkl : k = l
    · rw [if_pos hkl]
      have := h3 k (by rw [hr, hkl])
      dsimp only
      omega
    · rw [if_neg hkl]
      have := h2 k (by rw [hr]; simpa using fun e => hkl e.symm)
      omega

/-! ### the names -/

theorem takeWhile_all {p : UInt8 → Bool} : ∀ (l : Bytes), ∀ c ∈ l.takeWhile p, p c = true
  | [], c, h => absurd h List.not_mem_nil
  | x :: l, c, h => by
    rw [List.takeWhile_cons] at h
    split at h
    · rename_i hx
      rcases List.mem_cons.mp h with rfl | h
      · exact hx
      · exact takeWhile_all l c h
    · exact absurd h List.not_mem_nil

theorem suffixed_iff {name suffix : Bytes} : suffixed name suffix = true ↔ ∃ stem, name = stem ++ suffix := by
  unfold suffixed
  rw [Bool.and_eq_true, beq_iff_eq, decide_eq_true_eq]
  constructor
  · rintro ⟨h1, h2⟩
    exact ⟨name.take (name.length - suffix.length), by
      have := List.take_append_drop (name.length - suffix.length) name
      rw [h2] at this
      exact this.symm⟩
  · rintro ⟨stem, rfl⟩
    simp

theorem nameLoop_ok : ∀ (n : Nat) (rest : Bytes) (prev : Option Bytes), nameLoop n rest prev ≠ .ub ∧ ∀ l, nameLoop n rest prev = .ok l →
    l.length = n ∧ (∀ x ∈ l, LocalIdx x) ∧ (prev.toList ++ l).Pairwise (· < ·) := by
  intro n
  induction n with
  | zero =>
    intro rest prev
    rw [nameLoop]
    refine ⟨(fun h => nomatch h), fun l h => ?_⟩
    cases h
    refine ⟨rfl, fun x hx => absurd hx List.not_mem_nil, ?_⟩
    cases prev <;> simp
  | succ n ih =>
    intro rest prev
    rw [nameLoop]
    have hz := takeWhile_all (p := fun c => decide (c ≠ 0)) rest
    generalize rest.takeWhile (fun c => decide (c ≠ 0)) = name at hz
    split
    · exact ⟨(fun h => nomatch h), fun l h => nomatch h⟩
    split
    · exact ⟨(fun h => nomatch h), fun l h => nomatch h⟩
    split
    · exact ⟨(fun h => nomatch h), fun l h => nomatch h⟩
    rename_i hprev
    split
    · exact ⟨(fun h => nomatch h), fun l h => nomatch h⟩
    rename_i hsuf
    split
    · exact ⟨(fun h => nomatch h), fun l h => nomatch h⟩
    rename_i hsl
    obtain ⟨i1, i2⟩ := ih (rest.drop (name.length + 1)) (.some name)
    cases hn : nameLoop n (rest.drop (name.length + 1)) (.some name) with
    | ub => exact absurd hn i1
    | err e => exact ⟨(fun h => nomatch h), fun l h => nomatch h⟩
    | ok r =>
      obtain ⟨j1, j2, j3⟩ := i2 r hn
      refine ⟨(fun h => nomatch h), fun l h => ?_⟩
      rw [bind_ok] at h
      cases h
      rw [Option.toList, List.singleton_append] at j3
      have hlt : ∀ p, prev = .some p → p < name := by
        intro p hp
        subst hp
        simp only [notAfter, decide_eq_true_eq] at hprev
        exact bcmp_lt.mp (by omega)
      simp only [Bool.or_eq_true, decide_eq_true_eq, Bool.not_eq_true', not_or, Bool.not_eq_false] at hsuf
      obtain ⟨stem, hstem⟩ := suffixed_iff.mp hsuf.2
      have hloc : LocalIdx name := by
        refine ⟨⟨stem, fun h0 => ?_, hstem⟩, fun c hc => ⟨?_, ?_, ?_⟩⟩
        · rw [h0] at hstem
          have := hsuf.1
          rw [hstem] at this
          exact this (by decide)
        · simpa using hz c hc
        · intro e; subst e; exact hsl (by simp [hc])
        · intro e; subst e; exact hsl (by simp [hc])
      refine ⟨by rw [List.length_cons, j1], fun x hx => ?_, ?_⟩
      · rcases List.mem_cons.mp hx with rfl | hx
        · exact hloc
        · exact j2 x hx
      · cases prev with
        | none => exact j3
        | some p =>
          rw [Option.toList, List.singleton_append, List.pairwise_cons]
          refine ⟨fun x hx => ?_, j3⟩
          rcases List.mem_cons.mp hx with rfl | hx
          · exact hlt _ rfl
          · exact B.lt_trans (hlt _ rfl) ((List.pairwise_cons.mp j3).1 x hx)

/-- what is known about an accepted file -/
structure Acc (osz : Nat) (f : File) : Prop where
  fan : ∀ j < 256, (∃ v, rd32 f.file (f.fanout + 4 * j) = .ok v ∧ v.toNat = fanAt f.file f.fanout j) ∧ fanAt f.file f.fanout j ≤ f.num
  mono : ∀ i j, i ≤ j → j < 256 → fanAt f.file f.fanout i ≤ fanAt f.file f.fanout j
  lookup : f.lookup + f.num * osz ≤ f.file.length
  offsets : f.offsets + f.num * 8 ≤ f.file.length
  large : f.numLarge ≠ 0 → f.large + 8 * f.numLarge ≤ f.file.length
  names : (∀ x ∈ f.names, LocalIdx x) ∧ f.names.Pairwise (· < ·)

theorem parse_spec {osz : Nat} {file : Bytes} : parse osz file ≠ .ub ∧ ∀ f, parse osz file = .ok f →
    f.file = file ∧ Acc osz f ∧ osz ≤ file.length ∧ f.checksum = file.drop (file.length - osz) := by
  unfold parse
  split
  · exact ⟨(fun h => nomatch h), fun f h => nomatch h⟩
  rename_i hsz
  obtain ⟨sig, hsig⟩ := rd32_ok (b := file) (off := 0) (by omega)
  rw [hsig, bind_ok]
  obtain ⟨hdr, hhdr, -⟩ := slice_len (b := file) (off := 4) (len := 3) (by omega)
  rw [hhdr, bind_ok]
  obtain ⟨packs, hpk⟩ := rd32_ok (b := file) (off := 8) (by omega)
  rw [hpk, bind_ok]
  dsimp only
  split
  · exact ⟨(fun h => nomatch h), fun f h => nomatch h⟩
  split
  · exact ⟨(fun h => nomatch h), fun f h => nomatch h⟩
  generalize (hdr.getD 2 0).toNat = chunks
  split
  · exact ⟨(fun h => nomatch h), fun f h => nomatch h⟩
  rename_i htr
  obtain ⟨sum, hsum, hsuml⟩ := slice_len (b := file) (off := file.length - osz) (len := osz) (by omega)
  rw [hsum, bind_ok]
  have hs1 : sum = file.drop (file.length - osz) := by
    unfold slice at hsum
    rw [if_pos (by omega)] at hsum
    rw [← Res.ok.inj hsum, List.take_of_length_le]
    simp; omega
  have hsafe := chunkLoop_safe (file := file) (trailer := file.length - osz) chunks 12 (12 + (1 + chunks) * 12) none (fun _ => {}) (by omega)
  cases hc : chunkLoop file (file.length - osz) chunks 12 (12 + (1 + chunks) * 12) none (fun _ => {}) with
  | ub => exact absurd hc hsafe
  | err e => exact ⟨(fun h => nomatch h), fun f h => nomatch h⟩
  | ok r =>
    rw [bind_ok]
    have hin := chunks_in hc (by omega)
    generalize setLen r.2.2 r.2.1 (file.length - osz - r.1) = cs at hin
    have i0 := hin .names
    have i1 := hin .fanout
    have i2 := hin .lookup
    have i3 := hin .offsets
    have i4 := hin .large
    generalize cs .names = c0 at i0
    generalize cs .fanout = c1 at i1
    generalize cs .lookup = c2 at i2
    generalize cs .offsets = c3 at i3
    generalize cs .large = c4 at i4
    unfold parseNames
    split
    · exact ⟨(fun h => nomatch h), fun f h => nomatch h⟩
    split
    · exact ⟨(fun h => nomatch h), fun f h => nomatch h⟩
    obtain ⟨ch, hch, -⟩ := slice_len (b := file) (off := c0.off) (len := c0.len) (by omega)
    rw [hch, bind_ok]
    obtain ⟨n1, n2⟩ := nameLoop_ok packs.toNat ch none
    cases hn : nameLoop packs.toNat ch none with
    | ub => exact absurd hn n1
    | err e => exact ⟨(fun h => nomatch h), fun f h => nomatch h⟩
    | ok names =>
    obtain ⟨-, n3, n4⟩ := n2 names hn
    rw [bind_ok]
    unfold parseFanout
    split
    · exact ⟨(fun h => nomatch h), fun f h => nomatch h⟩
    split
    · exact ⟨(fun h => nomatch h), fun f h => nomatch h⟩
    split
    · exact ⟨(fun h => nomatch h), fun f h => nomatch h⟩
    rename_i hl1
    have hf1 := fanLoop_safe (file := file) (base := c1.off) (by omega) 256 0 (Nat.le_refl _)
    cases hfl : fanLoop file c1.off 256 0 with
    | ub => exact absurd hfl hf1
    | err e => exact ⟨(fun h => nomatch h), fun f h => nomatch h⟩
    | ok num =>
      rw [bind_ok]
      obtain ⟨-, g2, g3, g4⟩ := fanLoop_ok 256 0 num (Nat.le_refl _) hfl
      have htab : ∀ size (c : Chunk), parseTable size num c ≠ .ub ∧ (parseTable size num c = .ok () → c.len = num * size) := by
        intro size c
        unfold parseTable
        split
        · exact ⟨(fun h => nomatch h), fun h => nomatch h⟩
        split
        · exact ⟨(fun h => nomatch h), fun h => nomatch h⟩
        split
        · exact ⟨(fun h => nomatch h), fun h => nomatch h⟩
        exact ⟨(fun h => nomatch h), fun h => by omega⟩
      obtain ⟨t1, t2⟩ := htab osz c2
      cases h2 : parseTable osz num c2 with
      | ub => exact absurd h2 t1
      | err e => exact ⟨(fun h => nomatch h), fun f h => nomatch h⟩
      | ok u =>
        rw [bind_ok]
        have hl2 := t2 h2
        obtain ⟨t3, t4⟩ := htab 8 c3
        cases h3 : parseTable 8 num c3 with
        | ub => exact absurd h3 t3
        | err e => exact ⟨(fun h => nomatch h), fun f h => nomatch h⟩
        | ok u =>
          rw [bind_ok]
          have hl3 := t4 h3
          have key : ∀ e : Nat × Nat, (e.2 ≠ 0 → e.1 + 8 * e.2 ≤ file.length) → ∀ f,
              Res.ok (⟨file, names, c1.off, num, c2.off, c3.off, e.1, e.2, sum⟩ : File) = .ok f →
              f.file = file ∧ Acc osz f ∧ osz ≤ file.length ∧ f.checksum = file.drop (file.length - osz) := by
            intro e he f hf
            have := Res.ok.inj hf
            subst this
            refine ⟨rfl, ⟨fun j hj => ?_, fun i j hij hj => g3 i j (by omega) hij hj, by dsimp only; omega, by dsimp only; omega, he, n3, n4⟩, by omega, hs1⟩
            obtain ⟨e1, -, e3⟩ := g2 j (by omega) hj
            exact ⟨e1, e3⟩
          unfold parseLarge
          split
          · exact ⟨(fun h => nomatch h), key (0, 0) fun h => absurd rfl h⟩
          split
          · exact ⟨(fun h => nomatch h), fun f h => nomatch h⟩
          · exact ⟨(fun h => nomatch h), key (c4.off, c4.len / 8) fun _ => by dsimp only; omega⟩

theorem idTable_length (osz : Nat) (f : File) : (idTable osz f).length = f.num := by unfold idTable; simp

theorem table_ok {osz : Nat} {f : File} (ha : Acc osz f) : TableOK osz ⟨f.file, f.lookup, osz⟩ (idTable osz f) := by
  have hl := ha.lookup
  have hget : ∀ i (h : i < (idTable osz f).length), (idTable osz f)[i] = (f.file.drop (f.lookup + i * osz)).take osz := fun i h => by simp [idTable]
  have hb : ∀ i, i < (idTable osz f).length → f.lookup + i * osz + osz ≤ f.file.length := by
    intro i h
    rw [idTable_length] at h
    have := Nat.mul_le_mul_right osz (show i + 1 ≤ f.num from h)
    rw [Nat.succ_mul] at this
    omega
  refine ⟨fun i h => ?_, fun id h => ?_⟩
  · unfold Table.get slice
    dsimp only
    rw [if_pos (hb i h), hget i h]
  · obtain ⟨i, hi, rfl⟩ := List.getElem_of_mem h
    rw [hget i hi, List.length_take, List.length_drop]
    have := hb i hi
    omega

theorem entryAt_ok {osz : Nat} {f : File} (ha : Acc osz f) (pos : Nat) (hp : pos < f.num) (id : Bytes) :
    entryAt f pos id ≠ .ub ∧ ∀ e, entryAt f pos id = .ok e → e.id = id ∧ e.pack < f.names.length := by
  have ho := ha.offsets
  have hlt : (pos + 1) * 8 ≤ f.num * 8 := Nat.mul_le_mul_right _ hp
  obtain ⟨off, h1⟩ := rd32_ok (b := f.file) (off := f.offsets + pos * 8 + 4) (by omega)
  obtain ⟨pk, h2⟩ := rd32_ok (b := f.file) (off := f.offsets + pos * 8) (by omega)
  have fin : ∀ o : Nat, (rd32 f.file (f.offsets + pos * 8) >>= fun pack => if pack.toNat ≥ f.names.length then Res.err (-1) else .ok (⟨pack.toNat, o, id⟩ : Entry)) ≠ .ub ∧
      ∀ e, (rd32 f.file (f.offsets + pos * 8) >>= fun pack => if pack.toNat ≥ f.names.length then Res.err (-1) else .ok (⟨pack.toNat, o, id⟩ : Entry)) = .ok e →
        e.id = id ∧ e.pack < f.names.length := by
    intro o
    rw [h2, bind_ok]
    split
    · exact ⟨(fun h => nomatch h), fun e h => nomatch h⟩
    · refine ⟨(fun h => nomatch h), fun e h => ?_⟩
      cases h
      exact ⟨rfl, by dsimp only; omega⟩
  unfold entryAt
  rw [h1, bind_ok]
  split
  · rename_i hc
    dsimp only
    split
    · exact ⟨(fun h => nomatch h), fun e h => nomatch h⟩
    · have hl := ha.large hc.1
      obtain ⟨a, ha⟩ := rd32_ok (b := f.file) (off := f.large + 8 * (off.toNat % 2 ^ 31) % 2 ^ 32) (by omega)
      obtain ⟨b, hb⟩ := rd32_ok (b := f.file) (off := f.large + 8 * (off.toNat % 2 ^ 31) % 2 ^ 32 + 4) (by omega)
      rw [ha, bind_ok, hb, bind_ok, bind_ok]
      exact fin _
  · rw [bind_ok]
    exact fin _

theorem entryFind_eq {osz : Nat} {f : File} (ha : Acc osz f) (b0 : UInt8) (rest : Bytes) (len : Nat) :
    entryFind osz f (b0 :: rest) len =
      (PackIdx.find osz ⟨f.file, f.lookup, osz⟩ (idTable osz f).length (if b0 = 0 then 0 else fanAt f.file f.fanout (b0.toNat - 1)) (fanAt f.file f.fanout b0.toNat)
        (b0 :: rest) len >>= fun r => entryAt f r.1 r.2) ∧
    (if b0 = 0 then 0 else fanAt f.file f.fanout (b0.toNat - 1)) ≤ fanAt f.file f.fanout b0.toNat ∧
    fanAt f.file f.fanout b0.toNat ≤ (idTable osz f).length := by
  have hb := b0.toNat_lt
  obtain ⟨⟨v, h1, h2⟩, h3⟩ := ha.fan b0.toNat (by omega)
  rw [idTable_length]
  refine ⟨?_, ?_, h3⟩
  · unfold entryFind
    dsimp only
    rw [h1, bind_ok, h2]
    by_cases h0 : b0 = 0
    · rw [if_pos h0, if_pos h0]
      rfl
    · rw [if_neg h0, if_neg h0]
      obtain ⟨⟨w, h4, h5⟩, -⟩ := ha.fan (b0.toNat - 1) (by omega)
      rw [h4, bind_ok, bind_ok, h5]
  · split
    · exact Nat.zero_le _
    · exact ha.mono _ _ (by omega) (by omega)

theorem entryFind_ok {osz : Nat} {f : File} (ha : Acc osz f) (h0 : 0 < osz) {short : Bytes} (hs : short.length = osz) (len : Nat) :
    entryFind osz f short len ≠ .ub ∧ ∀ e, entryFind osz f short len = .ok e → e.id ∈ idTable osz f ∧ e.pack < f.names.length := by
  cases short with
  | nil => simp at hs; omega
  | cons b0 rest =>
    obtain ⟨h1, h2, h3⟩ := entryFind_eq ha b0 rest len
    rw [h1]
    rcases find_safe (table_ok ha) hs len h2 h3 with ⟨i, hi, hf⟩ | ⟨e, hf⟩
    · rw [hf, bind_ok]
      obtain ⟨g1, g2⟩ := entryAt_ok ha i (by rw [← idTable_length osz f]; exact hi) (idTable osz f)[i]
      exact ⟨g1, fun e h => ⟨by rw [(g2 e h).1]; exact List.getElem_mem hi, (g2 e h).2⟩⟩
    · rw [hf, bind_err]
      exact ⟨(fun h => nomatch h), fun e h => nomatch h⟩

/-- the search with a fan-out table that counts the ids -/
theorem entryFind_right {osz : Nat} {f : File} (ha : Acc osz f) (h0 : 0 < osz) (hsorted : (idTable osz f).Pairwise (· < ·)) (hfan : FanRight f.file f.fanout (idTable osz f))
    {short : Bytes} {len : Nat} (hs : short.length = osz) (hp : Padded len short) :
    (∃ i, ∃ h : i < (idTable osz f).length, entryFind osz f short len = entryAt f i (idTable osz f)[i] ∧ SamePrefix len short (idTable osz f)[i] ∧
      ∀ j (hj : j < (idTable osz f).length), SamePrefix len short (idTable osz f)[j] → j = i) ∨
    (entryFind osz f short len = .err ENOTFOUND ∧ ∀ id ∈ idTable osz f, ¬ SamePrefix len short id) ∨
    (entryFind osz f short len = .err EAMBIGUOUS ∧ ∃ i j, ∃ hi : i < (idTable osz f).length, ∃ hj : j < (idTable osz f).length, i < j ∧
      SamePrefix len short (idTable osz f)[i] ∧ SamePrefix len short (idTable osz f)[j]) := by
  have hfa : ∀ b < 256, fanAt f.file f.fanout b = ((idTable osz f).filter fun id => (id.headD 0).toNat ≤ b).length := by
    intro b hb
    obtain ⟨v, hv, hv2⟩ := hfan b hb
    unfold fanAt
    rw [hv]; exact hv2
  have ht := table_ok ha
  have hcount : ∀ b < 256, ∀ i (hi : i < (idTable osz f).length), i < fanAt f.file f.fanout b ↔ (((idTable osz f)[i].headD 0).toNat ≤ b) := by
    intro b hb i hi
    rw [hfa b hb]
    rw [lt_count hsorted (fun id => decide ((id.headD 0).toNat ≤ b)) (fun x hx y hy hxy h => ?_) i hi, decide_eq_true_eq]
    have := head_mono hxy (by rw [ht.size x hx, ht.size y hy])
    rw [decide_eq_true_eq] at h ⊢
    omega
  cases short with
  | nil => simp at hs; omega
  | cons b0 rest =>
    have hb := b0.toNat_lt
    obtain ⟨h1, h2, h3⟩ := entryFind_eq ha b0 rest len
    rw [h1]
    have hlo : ∀ i (h : i < (idTable osz f).length), i < (if b0 = 0 then 0 else fanAt f.file f.fanout (b0.toNat - 1)) → (idTable osz f)[i] < b0 :: rest := by
      intro i hi hlt
      split at hlt
      · omega
      · rename_i h0
        have hne : b0.toNat ≠ 0 := fun hh => h0 (UInt8.toNat_inj.mp hh)
        have := (hcount (b0.toNat - 1) (by omega) i hi).mp hlt
        refine lt_of_head ?_
        rw [List.headD_cons]; omega
    have hhi : ∀ i (h : i < (idTable osz f).length), fanAt f.file f.fanout b0.toNat ≤ i → b0 :: rest < (idTable osz f)[i] := by
      intro i hi hlt
      have := mt (hcount b0.toNat (by omega) i hi).mpr (by omega)
      refine lt_of_head ?_
      rw [List.headD_cons]; omega
    rcases find_right ht hsorted hs hp h2 h3 hlo hhi with ⟨i, hi, hf, g1, g2⟩ | ⟨hf, g1⟩ | ⟨hf, i, j, hi, hj, hij, g1, g2⟩ <;> rw [hf]
    · exact .inl ⟨i, hi, rfl, g1, g2⟩
    · exact .inr (.inl ⟨rfl, g1⟩)
    · exact .inr (.inr ⟨rfl, i, j, hi, hj, hij, g1, g2⟩)

theorem foreachLoop_ok {osz : Nat} {f : File} (ha : Acc osz f) : ∀ n, n ≤ f.num → foreachLoop osz f n = .ok ((idTable osz f).drop (f.num - n)) := by
  intro n
  induction n with
  | zero => intro _; rw [foreachLoop, List.drop_eq_nil_of_le (by rw [idTable_length]; omega)]
  | succ n ih =>
    intro hn
    have hi : f.num - (n + 1) < (idTable osz f).length := by rw [idTable_length]; omega
    have := (table_ok ha).get _ hi
    unfold Table.get at this
    dsimp only at this
    rw [foreachLoop, this, bind_ok, ih (by omega), bind_ok, show f.num - n = f.num - (n + 1) + 1 by omega]
    rw [List.drop_eq_getElem_cons hi]

end Verif.Midx
