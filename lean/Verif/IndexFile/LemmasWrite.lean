import Verif.IndexFile.Lemmas
/-! Lemmas: reading what was written. -/
namespace Verif.IndexFile

theorem sameLen_le (a b : Bytes) : sameLen a b ≤ a.length ∧ sameLen a b ≤ b.length ∧ a.take (sameLen a b) = b.take (sameLen a b) := by
  induction a generalizing b with
  | nil => simp [sameLen]
  | cons x xs ih =>
    cases b with
    | nil => simp [sameLen]
    | cons y ys =>
      rw [sameLen]
      split
      · rename_i h
        obtain ⟨h1, h2, h3⟩ := ih ys
        refine ⟨by simp; omega, by simp; omega, ?_⟩
        simp [h.1, h3]
      · simp

theorem takeWhile_nul {p rest : Bytes} (h : (0 : UInt8) ∉ p) : (p ++ 0 :: rest).takeWhile (· ≠ 0) = p := by
  induction p with
  | nil => simp
  | cons x xs ih =>
    have hx : x ≠ 0 := fun hx => h (by simp [hx])
    have hxs : (0 : UInt8) ∉ xs := fun hx => h (by simp [hx])
    rw [List.cons_append, List.takeWhile_cons_of_pos (by simpa using hx), ih hxs]

theorem cstrlen_nul {p rest : Bytes} (h : (0 : UInt8) ∉ p) : cstrlen (p ++ 0 :: rest) = .ok p.length := by
  rw [cstrlen_ok (by simp), takeWhile_nul h]

theorem pathOffset_range (f : UInt16) : 62 ≤ pathOffset f ∧ pathOffset f ≤ 64 := by unfold pathOffset; split <;> omega

/-- an entry the writer can represent -/
structure Fit (version : Nat) (e : Entry) : Prop where
  id : e.id.length = 20
  nul : (0 : UInt8) ∉ e.path
  name : (e.flags &&& 0xfff).toNat = min e.path.length 0xfff
  len : if 4 ≤ version then e.path.length + 1 ≤ 4096 else e.path.length + 72 < 2 ^ 64

theorem writeEntry_plain (e : Entry) (version : Nat) (hv : version < 4) (hf : Fit version e) (rest last : Bytes) (hrest : 20 ≤ rest.length) (env : Env)
    (hp : env.pathValid e.path = true) :
    ∃ bs, writeEntry e none = .ok bs ∧ bs.length % 8 = 0 ∧
      (∃ z, bs = fixedPart e ++ e.path ++ List.replicate z 0 ∧ 1 ≤ z ∧ z ≤ 8) ∧
      readEntry env version (bs ++ rest) last = .ok ({ e with flagsExt := keepExt e }, bs.length) := by
  have hlen := hf.len
  rw [if_neg (by omega)] at hlen
  have hoff := pathOffset_range e.flags
  have hfl := fixedPart_length e hf.id
  unfold writeEntry
  simp only
  have hsize : entrySize e.path.length 0 e.flags = (pathOffset e.flags + e.path.length + 8) / 8 * 8 := by
    unfold entrySize; simp only [ne_eq, not_true_eq_false, if_false]; rw [if_pos (by omega)]
  rw [hsize]
  rw [if_neg (by omega), if_neg (by omega)]
  generalize hz : (pathOffset e.flags + e.path.length + 8) / 8 * 8 - pathOffset e.flags - e.path.length = z
  have hz1 : 1 ≤ z ∧ z ≤ 8 := by omega
  have hbl : (fixedPart e ++ e.path ++ List.replicate z 0).length = (pathOffset e.flags + e.path.length + 8) / 8 * 8 := by
    simp only [List.length_append, List.length_replicate, hfl]; omega
  refine ⟨_, rfl, by rw [hbl]; omega, ⟨z, rfl, hz1.1, hz1.2⟩, ?_⟩
  unfold readEntry
  rw [if_neg (by rw [List.length_append, hbl]; omega)]
  rw [show fixedPart e ++ e.path ++ List.replicate z 0 ++ rest = fixedPart e ++ (e.path ++ List.replicate z 0 ++ rest) by simp only [List.append_assoc]]
  rw [readFixed_ok e hf.id _ (by simp; omega)]
  simp only [Res.bind_ok]
  have hm : (fixedPart e ++ (e.path ++ List.replicate z 0 ++ rest) ++ [0]).drop (pathOffset e.flags) = e.path ++ 0 :: (List.replicate (z - 1) 0 ++ rest ++ [0]) := by
    rw [List.append_assoc, List.drop_left' hfl]
    obtain ⟨k, rfl⟩ : ∃ k, z = k + 1 := ⟨z - 1, by omega⟩
    simp [List.replicate_succ]
  rw [hm]
  unfold readPath
  rw [if_neg (by omega)]
  unfold readPathPlain
  have hpl : plainLength e.flags (fixedPart e ++ (e.path ++ List.replicate z 0 ++ rest)).length (e.path ++ 0 :: (List.replicate (z - 1) 0 ++ rest ++ [0])) = .ok e.path.length := by
    unfold plainLength
    by_cases h : (e.flags &&& 0xfff).toNat = 0xfff
    · rw [if_pos h]
      have : memchr0 (e.path ++ 0 :: (List.replicate (z - 1) 0 ++ rest ++ [0])) (fixedPart e ++ (e.path ++ List.replicate z 0 ++ rest)).length = .ok (some e.path.length) := by
        unfold memchr0
        rw [if_pos, takeWhile_nul hf.nul]
        rw [List.take_append]
        rw [List.mem_append]
        right
        have : (fixedPart e ++ (e.path ++ List.replicate z 0 ++ rest)).length - e.path.length = ((fixedPart e ++ (e.path ++ List.replicate z 0 ++ rest)).length - e.path.length - 1) + 1 := by
          simp only [List.length_append, List.length_replicate]; omega
        rw [this, List.take_succ_cons]
        simp
      rw [this]
    · rw [if_neg h]
      have := hf.name
      congr 1
      omega
  rw [hpl, cstrlen_nul hf.nul]
  simp only [Res.bind_ok]
  rw [List.take_left' rfl, hsize]
  unfold finishEntry
  simp only
  rw [if_neg (by omega), if_neg (by simp only [List.length_append, List.length_replicate, hfl]; omega), if_neg (by simp [hp])]
  rw [hbl]

theorem writeEntry_comp (e : Entry) (version : Nat) (hv : 4 ≤ version) (hf : Fit version e) (rest last : Bytes) (hrest : 20 ≤ rest.length)
    (hlast : last.length < 2 ^ 64) (env : Env) (hp : env.pathValid e.path = true) :
    ∃ bs, writeEntry e (some last) = .ok bs ∧
      (∃ v, bs = fixedPart e ++ v ++ e.path.drop (sameLen e.path last) ++ [0] ∧ v = Varint.encodeBytes (UInt64.ofNat (last.length - sameLen e.path last))) ∧
      readEntry env version (bs ++ rest) last = .ok ({ e with flagsExt := keepExt e }, bs.length) := by
  have hlen := hf.len
  rw [if_pos hv] at hlen
  have hoff := pathOffset_range e.flags
  have hfl := fixedPart_length e hf.id
  obtain ⟨s1, s2, s3⟩ := sameLen_le e.path last
  generalize hs : sameLen e.path last = same at s1 s2 s3
  unfold writeEntry
  simp only [hs]
  obtain ⟨hvl, -⟩ := Varint.C01_encode_total none (UInt64.ofNat (last.length - same))
  have henc := fun k => (Varint.C01_encode_total k (UInt64.ofNat (last.length - same))).2
  have hpos : 0 < (Varint.encodeBytes (UInt64.ofNat (last.length - same))).length := by
    obtain ⟨c, cs, h1, -⟩ := Varint.encodeBytes_spec (UInt64.ofNat (last.length - same))
    rw [h1]; simp
  have hrt := fun sfx => Varint.C01_roundtrip (UInt64.ofNat (last.length - same)) sfx
  have hval : (UInt64.ofNat (last.length - same)).toNat = last.length - same := by
    rw [UInt64.toNat_ofNat']; omega
  generalize UInt64.ofNat (last.length - same) = u at *
  rw [henc none, ]
  simp only [Res.bind_ok]
  generalize hvb : Varint.encodeBytes u = v at *
  have hsize : entrySize (e.path.length - same) v.length e.flags = pathOffset e.flags + (e.path.length - same) + 1 + v.length := by
    unfold entrySize; rw [if_pos (by omega), if_pos (by omega)]
  rw [hsize, if_neg (by omega), henc (some _)]
  simp only
  rw [if_neg (by omega)]
  simp only [Res.bind_ok]
  rw [if_neg (by omega)]
  have hbl : (fixedPart e ++ v ++ e.path.drop same ++ [0]).length = pathOffset e.flags + (e.path.length - same) + 1 + v.length := by
    simp only [List.length_append, hfl, List.length_drop, List.length_cons, List.length_nil]; omega
  refine ⟨_, rfl, ⟨v, rfl, rfl⟩, ?_⟩
  unfold readEntry
  rw [if_neg (by rw [List.length_append, hbl]; omega)]
  rw [show fixedPart e ++ v ++ e.path.drop same ++ [0] ++ rest = fixedPart e ++ (v ++ e.path.drop same ++ [0] ++ rest) by simp only [List.append_assoc]]
  rw [readFixed_ok e hf.id _ (by simp)]
  simp only [Res.bind_ok]
  have hm : (fixedPart e ++ (v ++ e.path.drop same ++ [0] ++ rest) ++ [0]).drop (pathOffset e.flags) = v ++ (e.path.drop same ++ 0 :: (rest ++ [0])) := by
    rw [List.append_assoc, List.drop_left' hfl]; simp
  rw [hm]
  unfold readPath
  rw [if_pos hv]
  unfold readPathComp
  rw [hrt]
  simp only [Res.bind_ok, hval]
  rw [if_neg (by omega), List.drop_left' rfl]
  have hnul : (0 : UInt8) ∉ e.path.drop same := fun h => hf.nul (List.mem_of_mem_drop h)
  rw [cstrlen_nul hnul]
  simp only [Res.bind_ok]
  rw [show last.length - (last.length - same) = same by omega]
  rw [if_neg (by simp; omega), List.take_left' rfl, ← s3, List.take_append_drop]
  rw [List.length_drop, hsize]
  unfold finishEntry
  simp only [Res.bind_ok]
  rw [if_neg (by omega), if_neg (by simp only [List.length_append, hfl, List.length_drop, List.length_cons, List.length_nil]; omega), if_neg (by simp [hp])]
  rw [hbl]

/-- a list of entries is read back -/
theorem writeEntries_ok (env : Env) (version : Nat) (es : List Entry) : ∀ (last rest : Bytes), (∀ e ∈ es, Fit version e ∧ env.pathValid e.path = true) →
    20 ≤ rest.length → last.length < 2 ^ 64 →
    ∃ bs, writeEntries (decide (4 ≤ version)) es last = .ok bs ∧
      readEntries env version es.length (bs ++ rest) last = .ok (es.map (fun e => { e with flagsExt := keepExt e }), rest) := by
  induction es with
  | nil => intro last rest _ _ _; exact ⟨[], rfl, rfl⟩
  | cons e es ih =>
    intro last rest hall hrest hlast
    have he := hall e (by simp)
    have hpl : e.path.length < 2 ^ 64 := by
      have := he.1.len
      split at this <;> omega
    obtain ⟨bs2, w2, r2⟩ := ih e.path rest (fun x hx => hall x (by simp [hx])) hrest hpl
    rw [writeEntries]
    have key : ∃ bs1, writeEntry e (if decide (4 ≤ version) = true then some last else none) = .ok bs1 ∧ 20 ≤ bs1.length ∧
        readEntry env version (bs1 ++ (bs2 ++ rest)) last = .ok ({ e with flagsExt := keepExt e }, bs1.length) := by
      by_cases hv : 4 ≤ version
      · obtain ⟨bs1, h1, ⟨v, h2, -⟩, h3⟩ := writeEntry_comp e version hv he.1 (bs2 ++ rest) last (by simp; omega) hlast env he.2
        refine ⟨bs1, by simpa [hv] using h1, ?_, h3⟩
        have := fixedPart_length e he.1.id
        have := pathOffset_range e.flags
        rw [h2]; simp; omega
      · obtain ⟨bs1, h1, -, ⟨z, h2, -⟩, h3⟩ := writeEntry_plain e version (by omega) he.1 (bs2 ++ rest) last (by simp; omega) env he.2
        refine ⟨bs1, by simpa [hv] using h1, ?_, h3⟩
        have := fixedPart_length e he.1.id
        have := pathOffset_range e.flags
        rw [h2]; simp; omega
    obtain ⟨bs1, w1, l1, r1⟩ := key
    rw [w1, w2]
    refine ⟨bs1 ++ bs2, rfl, ?_⟩
    rw [List.length_cons, readEntries]
    rw [if_neg (by simp; omega), List.append_assoc, r1]
    simp only [Res.bind_ok]
    rw [if_neg (by simp; omega), List.drop_left' rfl]
    rw [r2]
    rfl

/-- an extension the reader accepts -/
def ExtFit (env : Env) (x : Ext) : Prop :=
  x.sig.length = 4 ∧ x.data.length < 2 ^ 32 ∧ c!"A" ≤ x.sig.headD 0 ∧ x.sig.headD 0 ≤ c!"Z" ∧
  ((x.sig = b!"TREE" ∨ x.sig = b!"REUC" ∨ x.sig = b!"NAME") → env.extOk x.sig x.data = true)

theorem writeExt_length (x : Ext) (h : x.sig.length = 4) : (writeExt x).length = x.data.length + 8 := by
  unfold writeExt; simp [be32_length, h]; omega

theorem readExtension_write (env : Env) (x : Ext) (hx : ExtFit env x) (rest : Bytes) (hr : 20 ≤ rest.length) :
    readExtension env (writeExt x ++ rest) = .ok (x, (writeExt x).length) := by
  obtain ⟨h1, h2, h3, h4, h5⟩ := hx
  have hl := writeExt_length x h1
  unfold readExtension
  have r1 := slice_append (pre := []) (mid := x.sig) (post := be32 (UInt32.ofNat x.data.length) ++ x.data ++ rest ++ [0]) (off := 0) rfl h1
  have r2 := rd32_at (pre := x.sig) (x := UInt32.ofNat x.data.length) (post := x.data ++ rest ++ [0]) (off := 4) h1
  have e1 : writeExt x ++ rest ++ [0] = x.sig ++ (be32 (UInt32.ofNat x.data.length) ++ (x.data ++ (rest ++ [0]))) := by unfold writeExt; simp
  simp only [List.append_assoc, List.nil_append] at r1 r2
  rw [e1, r1, r2]
  have hval : (UInt32.ofNat x.data.length).toNat = x.data.length := by rw [UInt32.toNat_ofNat']; omega
  simp only [Res.bind_ok, hval]
  rw [if_neg (by rw [List.length_append, hl]; omega)]
  have e2 : ((writeExt x ++ rest).drop 8).take x.data.length = x.data := by
    have : writeExt x ++ rest = (x.sig ++ be32 (UInt32.ofNat x.data.length)) ++ (x.data ++ rest) := by unfold writeExt; simp
    rw [this, List.drop_left' (by simp [h1, be32_length]), List.take_left' rfl]
  rw [e2, if_neg (not_not_intro ⟨h3, h4⟩), if_neg]
  · rw [hl]
  · rintro ⟨g1, g2⟩
    exact g2 (h5 g1)

theorem readExtensions_write (env : Env) (tail : Bytes) (ht : tail.length = 20) (xs : List Ext) : ∀ fuel, (∀ x ∈ xs, ExtFit env x) →
    ((xs.map writeExt).flatten ++ tail).length < fuel → readExtensions env fuel ((xs.map writeExt).flatten ++ tail) = .ok (xs, tail) := by
  induction xs with
  | nil =>
    intro fuel _ hf
    cases fuel with
    | zero => omega
    | succ fuel => rw [readExtensions, if_pos (by simp [ht])]; rfl
  | cons x xs ih =>
    intro fuel hx hf
    cases fuel with
    | zero => omega
    | succ fuel =>
      have hl := writeExt_length x (hx x (by simp)).1
      rw [readExtensions]
      have e1 : ((x :: xs).map writeExt).flatten ++ tail = writeExt x ++ ((xs.map writeExt).flatten ++ tail) := by simp
      rw [e1] at hf ⊢
      rw [if_neg (by rw [List.length_append, List.length_append]; omega), readExtension_write env x (hx x (by simp)) _ (by simp [ht])]
      simp only [Res.bind_ok]
      rw [if_neg (by rw [List.length_append, List.length_append]; omega), List.drop_left' rfl]
      rw [ih fuel (fun y hy => hx y (by simp [hy])) (by rw [List.length_append] at hf; omega)]
      rfl

end Verif.IndexFile
