import Verif.IndexFile.LemmasWrite
import Verif.IndexFile.Spec
/-! # C23: the index file -/
namespace Verif.IndexFile
open Spec

/-- **C23 (safety).** No file content makes the reader read outside the buffer (the contents and the NUL byte after them) or perform
another undefined operation. -/
theorem C23_safe (env : Env) (b : Bytes) : parse env b ≠ .ub := by
  unfold parse
  split
  · simp
  · rename_i hl
    obtain ⟨sig, hsig⟩ := rd32_ok (b := b) (off := 0) (by omega)
    obtain ⟨ver, hver⟩ := rd32_ok (b := b) (off := 4) (by omega)
    obtain ⟨cnt, hcnt⟩ := rd32_ok (b := b) (off := 8) (by omega)
    rw [hsig, hver, hcnt]
    simp only [Res.bind_ok]
    split
    · simp
    · split
      · simp
      · obtain ⟨g1, g2⟩ := readEntries_ok env ver.toNat cnt.toNat (b.drop 12) [] (by simp; omega)
        cases he : readEntries env ver.toNat cnt.toNat (b.drop 12) [] with
        | ub => exact absurd he g1
        | err c => simp
        | ok p =>
          obtain ⟨es, b1⟩ := p
          obtain ⟨-, k2, -⟩ := g2 es b1 he
          simp only [Res.bind_ok]
          obtain ⟨m1, -⟩ := readExtensions_ok env (b1.length + 1) b1 (by omega) k2
          cases hx : readExtensions env (b1.length + 1) b1 with
          | ub => exact absurd hx m1
          | err c => simp
          | ok q =>
            obtain ⟨xs, b2⟩ := q
            simp only [Res.bind_ok]
            repeat' split
            all_goals simp

theorem rd32_value {b : Bytes} {off : Nat} {x : UInt32} (h : rd32 b off = .ok x) : x.toNat = bigEndian ((b.drop off).take 4) := by
  unfold rd32 slice at h
  by_cases hl : off + 4 ≤ b.length
  · rw [if_pos hl] at h
    generalize (b.drop off).take 4 = m at *
    match m, h with
    | [a, b', c, d], h =>
      cases h
      simp only [bigEndian, List.foldl]
      have := a.toNat_lt; have := b'.toNat_lt; have := c.toNat_lt; have := d.toNat_lt
      rw [UInt32.toNat_ofNat']
      omega
  · rw [if_neg hl] at h; cases h

/-- **C23 (what is accepted).** A file that is read begins with `DIRC`, a version from 2 to 4 and the number of entries that were read,
every path was found valid, and it ends in the checksum of everything before it, or in a zero checksum. -/
theorem C23_accepts (env : Env) (b : Bytes) (p : Parsed) (h : parse env b = .ok p) :
    32 ≤ b.length ∧ bigEndian (b.take 4) = 0x44495243 ∧ bigEndian ((b.drop 4).take 4) = p.version ∧ 2 ≤ p.version ∧ p.version ≤ 4 ∧
    bigEndian ((b.drop 8).take 4) = p.entries.length ∧ (∀ e ∈ p.entries, env.pathValid e.path = true) ∧
    (b.drop (b.length - 20) = env.hash (b.take (b.length - 20)) ∨ b.drop (b.length - 20) = List.replicate 20 0) := by
  unfold parse at h
  split at h
  · cases h
  · rename_i hl
    obtain ⟨sig, hsig⟩ := rd32_ok (b := b) (off := 0) (by omega)
    obtain ⟨ver, hver⟩ := rd32_ok (b := b) (off := 4) (by omega)
    obtain ⟨cnt, hcnt⟩ := rd32_ok (b := b) (off := 8) (by omega)
    have v0 := rd32_value hsig
    have v1 := rd32_value hver
    have v2 := rd32_value hcnt
    rw [hsig, hver, hcnt] at h
    simp only [Res.bind_ok] at h
    split at h
    · cases h
    · rename_i hs
      split at h
      · cases h
      · rename_i hvv
        obtain ⟨g1, g2⟩ := readEntries_ok env ver.toNat cnt.toNat (b.drop 12) [] (by simp; omega)
        cases he : readEntries env ver.toNat cnt.toNat (b.drop 12) [] with
        | ub => rw [he] at h; cases h
        | err c => rw [he] at h; cases h
        | ok q =>
          obtain ⟨es, b1⟩ := q
          obtain ⟨k1, k2, ⟨pre1, k3⟩, k4⟩ := g2 es b1 he
          rw [he] at h
          simp only [Res.bind_ok] at h
          obtain ⟨m1, m2⟩ := readExtensions_ok env (b1.length + 1) b1 (by omega) k2
          cases hx : readExtensions env (b1.length + 1) b1 with
          | ub => rw [hx] at h; cases h
          | err c => rw [hx] at h; cases h
          | ok r =>
            obtain ⟨xs, b2⟩ := r
            obtain ⟨n1, pre2, n2⟩ := m2 xs b2 hx
            rw [hx] at h
            simp only [Res.bind_ok] at h
            split at h
            · cases h
            · split at h
              · cases h
              · rename_i hck
                cases h
                have hb : b = (b.take 12 ++ pre1 ++ pre2) ++ b2 := by
                  conv => lhs; rw [← List.take_append_drop 12 b, k3, n2]
                  simp
                have hb2 : b.drop (b.length - 20) = b2 := by
                  have hlen := congrArg List.length hb
                  rw [List.length_append, n1] at hlen
                  conv => lhs; rw [hb]
                  exact List.drop_left' (by rw [← hb]; omega)
                rw [hb2]
                refine ⟨by omega, ?_, v1.symm, by simp only; omega, by simp only; omega, by rw [k1]; exact v2.symm, k4, ?_⟩
                · rw [List.drop_zero] at v0
                  rw [← v0]; exact Decidable.not_not.mp hs
                · by_cases hz : b2 = List.replicate 20 0
                  · exact .inr hz
                  · left
                    refine Decidable.not_not.mp (fun hn => hck ⟨hz, hn⟩)

theorem adjust_eq (e : Entry) : adjust e = { e with flags := (kept e).flags } := by
  unfold adjust kept
  simp only
  by_cases h : e.flagsExt &&& 0x6000 = 0 <;> simp [h]

theorem or_ext (f : UInt16) : (f ||| 0x4000) &&& 0x4000 = 0x4000 := by
  apply UInt16.toBitVec_inj.mp
  simp only [UInt16.toBitVec_and, UInt16.toBitVec_or]
  ext i hi
  simp only [BitVec.getElem_and, BitVec.getElem_or]
  match i with
  | 0 | 1 | 2 | 3 | 4 | 5 | 6 | 7 | 8 | 9 | 10 | 11 | 12 | 13 | 14 | 15 => simp
  | n + 16 => omega

theorem or_name (f : UInt16) : (f ||| 0x4000) &&& 0xfff = f &&& 0xfff := by
  apply UInt16.toBitVec_inj.mp
  simp only [UInt16.toBitVec_and, UInt16.toBitVec_or]
  ext i hi
  simp only [BitVec.getElem_and, BitVec.getElem_or]
  match i with
  | 0 | 1 | 2 | 3 | 4 | 5 | 6 | 7 | 8 | 9 | 10 | 11 | 12 | 13 | 14 | 15 => simp
  | n + 16 => omega

theorem and_ext (f : UInt16) : (f &&& 0xbfff) &&& 0x4000 = 0 := by
  rw [UInt16.and_assoc, show (0xbfff : UInt16) &&& 0x4000 = 0 by decide]; simp

theorem and_name (f : UInt16) : (f &&& 0xbfff) &&& 0xfff = f &&& 0xfff := by rw [UInt16.and_assoc]; congr 1

theorem adjust_fit (e : Entry) (h : Spec.Entry.Ok e) (version : Nat) (hv : version ≤ 3) : Fit version (adjust e) ∧ keepExt (adjust e) = (kept e).flagsExt := by
  rw [adjust_eq]
  refine ⟨⟨h.id, h.nul, ?_, ?_⟩, ?_⟩
  · have := h.name
    simp only [kept]
    split
    · rw [and_name]; exact this
    · rw [or_name]; exact this
  · rw [if_neg (by omega)]; exact h.len
  · simp only [keepExt, kept, isExt]
    by_cases h0 : e.flagsExt &&& 0x6000 = 0
    · simp [h0, and_ext]
    · simp [h0, or_ext]

theorem kept_adjust (e : Entry) (h : Spec.Entry.Ok e) : { adjust e with flagsExt := keepExt (adjust e) } = kept e := by
  rw [(adjust_fit e h 2 (by omega)).2, adjust_eq]
  rfl

/-- the shared part of the round trips -/
theorem parse_write (env : Env) (hh : ∀ m, (env.hash m).length = 20) (ver : Nat) (hv : 2 ≤ ver ∧ ver ≤ 4) (es : List Entry) (xs : List Ext)
    (hes : ∀ e ∈ es, Fit ver e ∧ env.pathValid e.path = true) (hn : es.length < 2 ^ 32) (hxs : ∀ x ∈ xs, ExtFit env x) :
    ∃ body, writeEntries (decide (4 ≤ ver)) es [] = .ok body ∧ ∀ content,
      content = be32 0x44495243 ++ be32 (UInt32.ofNat ver) ++ be32 (UInt32.ofNat es.length) ++ body ++ (xs.map writeExt).flatten →
      parse env (content ++ env.hash content) = .ok ⟨ver, es.map (fun e => { e with flagsExt := keepExt e }), xs⟩ := by
  have hlast : ([] : Bytes).length < 2 ^ 64 := by simp
  have hgen := fun rest hr => writeEntries_ok env ver es [] rest hes hr hlast
  obtain ⟨body, hw, -⟩ := hgen (List.replicate 20 0) (by simp)
  refine ⟨body, hw, ?_⟩
  intro content hc
  have hl := hh content
  have hcl : content.length = 12 + body.length + ((xs.map writeExt).flatten).length := by rw [hc]; simp [be32_length]; omega
  have hfile : content ++ env.hash content = be32 0x44495243 ++ (be32 (UInt32.ofNat ver) ++ (be32 (UInt32.ofNat es.length) ++ (body ++ ((xs.map writeExt).flatten ++ env.hash content)))) := by
    conv => lhs; lhs; rw [hc]
    simp only [List.append_assoc]
  unfold parse
  rw [if_neg (by rw [List.length_append, hl, hcl]; omega)]
  have r0 := rd32_at (pre := []) (x := 0x44495243) (post := be32 (UInt32.ofNat ver) ++ (be32 (UInt32.ofNat es.length) ++ (body ++ ((xs.map writeExt).flatten ++ env.hash content)))) (off := 0) rfl
  have r1 := rd32_at (pre := be32 0x44495243) (x := UInt32.ofNat ver) (post := be32 (UInt32.ofNat es.length) ++ (body ++ ((xs.map writeExt).flatten ++ env.hash content))) (off := 4) rfl
  have r2 := rd32_at (pre := be32 0x44495243 ++ be32 (UInt32.ofNat ver)) (x := UInt32.ofNat es.length) (post := body ++ ((xs.map writeExt).flatten ++ env.hash content)) (off := 8) rfl
  simp only [List.append_assoc, List.nil_append] at r0 r1 r2
  have htake : (content ++ env.hash content).take ((content ++ env.hash content).length - 20) = content := by
    rw [List.length_append, hl, Nat.add_sub_cancel, List.take_left' rfl]
  rw [htake]
  rw [hfile, r0, r1, r2]
  have hv1 : (UInt32.ofNat ver).toNat = ver := by rw [UInt32.toNat_ofNat']; omega
  have hv2 : (UInt32.ofNat es.length).toNat = es.length := by rw [UInt32.toNat_ofNat']; omega
  simp only [Res.bind_ok, hv1, hv2]
  rw [if_neg (by decide), if_neg (by omega)]
  have hdrop : (be32 0x44495243 ++ (be32 (UInt32.ofNat ver) ++ (be32 (UInt32.ofNat es.length) ++ (body ++ ((xs.map writeExt).flatten ++ env.hash content))))).drop 12
      = body ++ ((xs.map writeExt).flatten ++ env.hash content) := by
    rw [← List.append_assoc, ← List.append_assoc]; exact List.drop_left' rfl
  rw [hdrop]
  obtain ⟨body', hw', hr'⟩ := hgen ((xs.map writeExt).flatten ++ env.hash content) (by rw [List.length_append, hl]; omega)
  rw [hw] at hw'
  cases hw'
  rw [hr']
  simp only [Res.bind_ok]
  rw [readExtensions_write env (env.hash content) hl xs _ hxs (by omega)]
  simp only [Res.bind_ok]
  rw [if_neg (by rw [hl]; simp), if_neg (by simp)]

/-- **C23 (round trip, versions 2 and 3).** Writing an index of version 2 or 3 succeeds, and reading the file back gives the same entries
and extensions (of the extended flags the two that are persistent); the file's version is 3 exactly when an extended flag is set. -/
theorem C23_roundtrip_v2_v3 (env : Env) (hh : ∀ m, (env.hash m).length = 20) (version : Nat) (hv : version = 2 ∨ version = 3)
    (es : List Entry) (xs : List Ext) (hes : ∀ e ∈ es, Spec.Entry.Ok e ∧ env.pathValid e.path = true) (hn : es.length < 2 ^ 32)
    (hxs : ∀ x ∈ xs, Spec.Ext.Ok env x) :
    ∃ file, write env version es xs = .ok file ∧
      parse env file = .ok ⟨if ∃ e ∈ es, e.flagsExt &&& 0x6000 ≠ 0 then 3 else 2, es.map kept, xs⟩ := by
  have hext : ∀ x ∈ xs, ExtFit env x := fun x hx => ⟨(hxs x hx).sig, (hxs x hx).size, (hxs x hx).upper.1, (hxs x hx).upper.2, (hxs x hx).content⟩
  generalize hver : (if es.any (fun e => e.flagsExt &&& 0x6000 ≠ 0) then 3 else 2) = ver
  have hver2 : 2 ≤ ver ∧ ver ≤ 3 := by rw [← hver]; split <;> omega
  have hver3 : (if ∃ e ∈ es, e.flagsExt &&& 0x6000 ≠ 0 then 3 else 2) = ver := by
    rw [← hver]
    have : (es.any (fun e => e.flagsExt &&& 0x6000 ≠ 0) = true) ↔ ∃ e ∈ es, e.flagsExt &&& 0x6000 ≠ 0 := by simp
    simp only [this]
  rw [hver3]
  obtain ⟨body, h1, h2⟩ := parse_write env hh ver (by omega) (es.map adjust) xs (by
    intro e he
    obtain ⟨e', he', rfl⟩ := List.mem_map.mp he
    refine ⟨(adjust_fit e' (hes e' he').1 ver hver2.2).1, ?_⟩
    rw [adjust_eq]; exact (hes e' he').2) (by simpa using hn) hext
  unfold write
  rw [if_pos (by omega), if_pos (by omega), hver]
  have hcomp : decide (4 ≤ version) = decide (4 ≤ ver) := by simp; omega
  rw [hcomp]
  simp only
  rw [h1]
  simp only [Res.bind_ok]
  have := h2 _ rfl
  rw [List.length_map] at this
  refine ⟨_, rfl, ?_⟩
  rw [this, List.map_map]
  congr 2
  apply List.map_congr_left
  intro e he
  exact kept_adjust e (hes e he).1

/-- **C23 (round trip, version 4).** Writing an index of version 4 succeeds, and reading the file back gives the same entries and extensions,
provided that paths are shorter than 4096 bytes and that entries with persistent extended flags have the "extended" bit set. -/
theorem C23_roundtrip_v4 (env : Env) (hh : ∀ m, (env.hash m).length = 20)
    (es : List Entry) (xs : List Ext) (hes : ∀ e ∈ es, Spec.Entry.Ok e ∧ env.pathValid e.path = true ∧ e.path.length < 4096 ∧
      (e.flagsExt &&& 0x6000 ≠ 0 → e.flags &&& 0x4000 ≠ 0)) (hn : es.length < 2 ^ 32) (hxs : ∀ x ∈ xs, Spec.Ext.Ok env x) :
    ∃ file, write env 4 es xs = .ok file ∧
      parse env file = .ok ⟨4, es.map (fun e => { e with flagsExt := e.flagsExt &&& 0x6000 }), xs⟩ := by
  have hext : ∀ x ∈ xs, ExtFit env x := fun x hx => ⟨(hxs x hx).sig, (hxs x hx).size, (hxs x hx).upper.1, (hxs x hx).upper.2, (hxs x hx).content⟩
  obtain ⟨body, h1, h2⟩ := parse_write env hh 4 (by omega) es xs (by
    intro e he
    obtain ⟨g1, g2, g3, -⟩ := hes e he
    exact ⟨⟨g1.id, g1.nul, g1.name, by rw [if_pos (by omega)]; omega⟩, g2⟩) hn hext
  unfold write
  rw [if_neg (by omega), if_neg (by omega)]
  simp only
  rw [h1]
  simp only [Res.bind_ok]
  refine ⟨_, rfl, ?_⟩
  rw [h2 _ rfl]
  congr 2
  apply List.map_congr_left
  intro e he
  obtain ⟨-, -, -, g4⟩ := hes e he
  congr 1
  unfold keepExt isExt
  by_cases hx : e.flags &&& 0x4000 = 0
  · have : e.flagsExt &&& 0x6000 = 0 := by
      exact Decidable.not_not.mp (fun hc => g4 hc hx)
    simp [hx, this]
  · simp [hx]

/-- **C23 (format of a plain entry).** An entry of a version 2 or 3 file is the fixed part (62 bytes, or 64 with extended flags), the path,
and one to eight NUL bytes, up to a multiple of eight. -/
theorem C23_plain_format (e : Entry) (h : Spec.Entry.Ok e) : ∃ bs z, writeEntry e none = .ok bs ∧ bs.length % 8 = 0 ∧ 1 ≤ z ∧ z ≤ 8 ∧
    bs = fixedPart e ++ e.path ++ List.replicate z 0 ∧ (fixedPart e).length = (if e.flags &&& 0x4000 ≠ 0 then 64 else 62) := by
  obtain ⟨bs, h1, h2, ⟨z, h3, h4, h5⟩, -⟩ := writeEntry_plain e 2 (by omega) ⟨h.id, h.nul, h.name, by rw [if_neg (by omega)]; exact h.len⟩
    (List.replicate 20 0) [] (by simp) ⟨fun _ => true, fun _ => [], fun _ _ => true⟩ rfl
  refine ⟨bs, z, h1, h2, h4, h5, h3, ?_⟩
  rw [fixedPart_length e h.id]
  unfold pathOffset isExt
  simp

/-- **C23 (layout).** The fixed part of a written entry has the documented layout: ten big-endian 32 bit numbers, the 20 byte object id, and
the 16 bit flags at offset 60, with the persistent extended flags at offset 62 if the "extended" bit is set. -/
theorem C23_layout (e : Entry) (h : e.id.length = 20) (rest : Bytes) :
    let num := fun k => bigEndian (((fixedPart e ++ rest).drop k).take 4)
    num 0 = e.ctimeSec.toNat ∧ num 4 = e.ctimeNsec.toNat ∧ num 8 = e.mtimeSec.toNat ∧ num 12 = e.mtimeNsec.toNat ∧
    num 16 = e.dev.toNat ∧ num 20 = e.ino.toNat ∧ num 24 = e.mode.toNat ∧ num 28 = e.uid.toNat ∧ num 32 = e.gid.toNat ∧
    num 36 = e.fileSize.toNat ∧ ((fixedPart e ++ rest).drop 40).take 20 = e.id ∧
    bigEndian (((fixedPart e ++ rest).drop 60).take 2) = e.flags.toNat ∧
    (e.flags &&& 0x4000 ≠ 0 → bigEndian (((fixedPart e ++ rest).drop 62).take 2) = (e.flagsExt &&& 0x6000).toNat) := by
  have h32 : ∀ x : UInt32, bigEndian (be32 x) = x.toNat := by
    intro x
    simp only [bigEndian, be32, List.foldl, UInt8.toNat_ofNat']
    have := x.toNat_lt
    omega
  have h16 : ∀ x : UInt16, bigEndian (be16 x) = x.toNat := by
    intro x
    simp only [bigEndian, be16, List.foldl, UInt8.toNat_ofNat']
    have := x.toNat_lt
    omega
  have key : ∀ (pre mid post : Bytes) (k n : Nat), fixedPart e ++ rest = pre ++ (mid ++ post) → pre.length = k → mid.length = n →
      ((fixedPart e ++ rest).drop k).take n = mid := by
    intro pre mid post k n h1 h2 h3
    rw [h1, List.drop_left' h2, List.take_left' h3]
  obtain ⟨n0, n1, n2, n3, n4, n5, n6, n7, n8, n9, id, flags, fx, path⟩ := e
  simp only at h ⊢
  refine ⟨?_, ?_, ?_, ?_, ?_, ?_, ?_, ?_, ?_, ?_, ?_, ?_, ?_⟩
  · rw [key [] (be32 n0) _ 0 4 (by simp only [fixedPart, List.append_assoc, List.nil_append]; rfl) rfl rfl, h32]
  · rw [key (be32 n0) (be32 n1) _ 4 4 (by simp only [fixedPart, List.append_assoc]; rfl) rfl rfl, h32]
  · rw [key (be32 n0 ++ be32 n1) (be32 n2) _ 8 4 (by simp only [fixedPart, List.append_assoc]; rfl) rfl rfl, h32]
  · rw [key (be32 n0 ++ be32 n1 ++ be32 n2) (be32 n3) _ 12 4 (by simp only [fixedPart, List.append_assoc]; rfl) rfl rfl, h32]
  · rw [key (be32 n0 ++ be32 n1 ++ be32 n2 ++ be32 n3) (be32 n4) _ 16 4 (by simp only [fixedPart, List.append_assoc]; rfl) rfl rfl, h32]
  · rw [key (be32 n0 ++ be32 n1 ++ be32 n2 ++ be32 n3 ++ be32 n4) (be32 n5) _ 20 4 (by simp only [fixedPart, List.append_assoc]; rfl) rfl rfl, h32]
  · rw [key (be32 n0 ++ be32 n1 ++ be32 n2 ++ be32 n3 ++ be32 n4 ++ be32 n5) (be32 n6) _ 24 4 (by simp only [fixedPart, List.append_assoc]; rfl) rfl rfl, h32]
  · rw [key (be32 n0 ++ be32 n1 ++ be32 n2 ++ be32 n3 ++ be32 n4 ++ be32 n5 ++ be32 n6) (be32 n7) _ 28 4 (by simp only [fixedPart, List.append_assoc]; rfl) rfl rfl, h32]
  · rw [key (be32 n0 ++ be32 n1 ++ be32 n2 ++ be32 n3 ++ be32 n4 ++ be32 n5 ++ be32 n6 ++ be32 n7) (be32 n8) _ 32 4 (by simp only [fixedPart, List.append_assoc]; rfl) rfl rfl, h32]
  · rw [key (be32 n0 ++ be32 n1 ++ be32 n2 ++ be32 n3 ++ be32 n4 ++ be32 n5 ++ be32 n6 ++ be32 n7 ++ be32 n8) (be32 n9) _ 36 4 (by simp only [fixedPart, List.append_assoc]; rfl) rfl rfl, h32]
  · exact key (be32 n0 ++ be32 n1 ++ be32 n2 ++ be32 n3 ++ be32 n4 ++ be32 n5 ++ be32 n6 ++ be32 n7 ++ be32 n8 ++ be32 n9) id _ 40 20 (by simp only [fixedPart, List.append_assoc]; rfl) rfl h
  · rw [key (be32 n0 ++ be32 n1 ++ be32 n2 ++ be32 n3 ++ be32 n4 ++ be32 n5 ++ be32 n6 ++ be32 n7 ++ be32 n8 ++ be32 n9 ++ id) (be16 flags) _ 60 2 (by simp only [fixedPart, List.append_assoc]; rfl) (by simp [be32_length, h]) rfl, h16]
  · intro hx
    have hx' : isExt flags = true := by simp [isExt, hx]
    rw [key (be32 n0 ++ be32 n1 ++ be32 n2 ++ be32 n3 ++ be32 n4 ++ be32 n5 ++ be32 n6 ++ be32 n7 ++ be32 n8 ++ be32 n9 ++ id ++ be16 flags) (be16 (fx &&& 0x6000)) rest 62 2 (by simp only [fixedPart, hx', if_true, List.append_assoc]) (by simp [be32_length, be16_length, h]) rfl, h16]

/-! ## Examples and findings -/

def zeroHash : Env := ⟨fun _ => true, fun _ => List.replicate 20 7, fun _ _ => true⟩
def sample (p : Bytes) (f : UInt16) (x : UInt16 := 0) : Entry := ⟨1, 2, 3, 4, 5, 6, 0o100644, 7, 8, 9, List.replicate 20 0xab, f, x, p⟩

/-- two entries sharing a prefix, in version 4, with a skipped extension -/
example : (do parse zeroHash (← write zeroHash 4 [sample b!"dir/a" 5, sample b!"dir/bc" 6] [⟨b!"XYZW", b!"hi"⟩])) =
    .ok ⟨4, [sample b!"dir/a" 5, sample b!"dir/bc" 6], [⟨b!"XYZW", b!"hi"⟩]⟩ := by decide +kernel

/-- the same in version 2, with skip-worktree on one entry: the file has version 3 -/
example : (do parse zeroHash (← write zeroHash 2 [sample b!"a" 1, sample b!"b" 1 0x4000] [])) =
    .ok ⟨3, [sample b!"a" 1, sample b!"b" 0x4001 0x4000], []⟩ := by decide +kernel

example : Spec.Entry.Ok (sample b!"dir/a" 5) := ⟨by decide, by decide, by decide, by decide⟩

/-- **Finding.** In version 4 the "extended" bit is not set for the caller: an entry with the skip-worktree flag loses it. -/
theorem C23_v4_loses_extended_flags :
    (do parse zeroHash (← write zeroHash 4 [sample b!"a" 1 0x4000] [])) = .ok ⟨4, [sample b!"a" 1 0], []⟩ := by decide +kernel

end Verif.IndexFile
