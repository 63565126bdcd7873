import Verif.Pack.Lemmas2
/-! # C07, C08, C52: entries of a pack -/
namespace Verif.Pack
open Spec Verif.Delta.Spec

/-! ## C07: the header before each object -/

/-- C07: for every object type and every 64-bit size the writer produces the header of the format, at most ten bytes (the size of
the callers' buffers), and whatever follows it the reader gets back the type, the size and the exact length. -/
theorem C07_roundtrip (type size : Nat) (h1 : 1 ≤ type) (h7 : type ≤ 7) (hs : size < 2 ^ 64) :
    ∃ h, objectHeader size type = .ok h ∧ EncodesHeader type size h ∧ h.length ≤ 10 ∧
      ∀ suffix, unpackHeader1 (h ++ suffix) = .ok (type, size, h.length) := by
  obtain ⟨h, e1, e2, e3⟩ := objectHeader_spec type size h1 h7 hs
  refine ⟨h, e1, e2, e3, fun suffix => (unpackHeader1_ok _ _ _ _).mpr ⟨h, suffix, size, rfl, e2, e3, ?_, rfl⟩⟩
  rw [Nat.mod_eq_of_lt hs]

/-- C07: exactly what the reader accepts, for all bytes: a header of the format of at most ten bytes, its size taken modulo
`2^64`. -/
theorem C07_read (buf : Bytes) (type size used : Nat) :
    unpackHeader1 buf = .ok (type, size, used) ↔
      ∃ h rest n, buf = h ++ rest ∧ EncodesHeader type n h ∧ h.length ≤ 10 ∧ size = n % 2 ^ 64 ∧ used = h.length :=
  unpackHeader1_ok buf type size used

/-- C07: a header that is cut off (every byte announces another) asks for more bytes. -/
theorem C07_truncated (buf : Bytes) (h0 : buf ≠ []) (h10 : buf.length ≤ 10) (hc : ∀ c ∈ buf, 128 ≤ c.toNat) :
    unpackHeader1 buf = .err EBUFS := by
  obtain ⟨b, bs, rfl⟩ := List.exists_cons_of_ne_nil h0
  have := unpackLoop_trunc bs b (b.toNat &&& 15) 4 1 (hc b (by simp)) (fun x hx => hc x (by simp [hx])) (by simp at h10; omega)
  simp only [unpackHeader1, this, Res.bind_err]

/-- C07: an eleventh byte is refused. -/
theorem C07_overlong (bs rest : Bytes) (hl : bs.length = 10) (hc : ∀ c ∈ bs, 128 ≤ c.toNat) (hr : rest ≠ []) :
    unpackHeader1 (bs ++ rest) = .err (-1) := by
  cases bs with
  | nil => simp at hl
  | cons b bs =>
    have := unpackLoop_over bs rest hr b (b.toNat &&& 15) 4 1 (hc b (by simp)) (fun x hx => hc x (by simp [hx])) (by simp at hl; omega)
    simp only [unpackHeader1, List.cons_append, this, Res.bind_err]

/-- C07: only bytes of the buffer are read, provided there is at least one. -/
theorem C07_safe (buf : Bytes) : unpackHeader1 buf = .ub ↔ buf = [] := by
  constructor
  · intro h
    cases buf with
    | nil => rfl
    | cons b bs =>
      simp only [unpackHeader1] at h
      have := unpackLoop_ne_ub bs b.toNat (b.toNat &&& 15) 4 1
      cases hu : unpackLoop b.toNat (b.toNat &&& 15) 4 1 bs with
      | ok x => rw [hu] at h; cases h
      | err e => rw [hu] at h; cases h
      | ub => exact absurd hu this
  · rintro rfl; rfl

/-- C07 (what the code does where the format has no answer): a ten-byte header can announce more than `2^64`; the excess is
dropped silently. -/
theorem C07_wraps : ∃ h n, EncodesHeader 3 n h ∧ 2 ^ 64 < n ∧ unpackHeader1 h = .ok (3, 1, 10) := by
  refine ⟨[0xb1, 0x80, 0x80, 0x80, 0x80, 0x80, 0x80, 0x80, 0x80, 0x10], 1 + 16 * (128 * (128 * (128 * (128 * (128 * (128 * (128 * (128 * 16)))))))),
    ?_, by decide, by decide +kernel⟩
  exact .long 0xb1 (by decide) (.more 0x80 (by decide) (.more 0x80 (by decide) (.more 0x80 (by decide) (.more 0x80 (by decide)
    (.more 0x80 (by decide) (.more 0x80 (by decide) (.more 0x80 (by decide) (.more 0x80 (by decide) (.last 0x10 (by decide))))))))))

theorem objectHeader_ex : objectHeader 300 3 = .ok [0xbc, 0x12] := by
  unfold objectHeader
  rw [if_neg (by decide)]
  rw [headerLoop_pos _ _ (by decide)]
  rw [show (300 >>> 4 / 128 : Nat) = 0 by decide]
  rw [headerLoop_zero]
  decide
example : unpackHeader1 [0xbc, 0x12, 0xff] = .ok (3, 300, 2) := by decide +kernel
example : unpackHeader1 [0xbc] = .err EBUFS := by decide +kernel

/-! ## C08: offset deltas -/

/-- C08: for an object at `off`, the distance `v` in any of its encodings, followed by anything, leads to the base at
`off - v`, and exactly the bytes of the encoding are consumed. -/
theorem C08_roundtrip (bs suffix : Bytes) (off : Nat) (hoff : off < 2 ^ 64) (hw : Varint.Spec.WellFormed bs)
    (h0 : 0 < Varint.Spec.value bs) (hv : Varint.Spec.value bs < off) :
    ofsBase (bs ++ suffix) off = .ok (off - Varint.Spec.value bs, bs.length) :=
  (ofsBase_ok _ _ _ _ hoff).mpr ⟨bs, suffix, rfl, hw, h0, hv, rfl, rfl⟩

/-- C08: every distance has an encoding (the one of the index varints), so every base before the object can be named. -/
theorem C08_encodable (v : UInt64) (suffix : Bytes) (off : Nat) (hoff : off < 2 ^ 64) (h0 : 0 < v.toNat) (hv : v.toNat < off) :
    ofsBase (Varint.encodeBytes v ++ suffix) off = .ok (off - v.toNat, (Varint.encodeBytes v).length) := by
  have h := Varint.C01_decode_sound _ _ _ (Varint.C01_roundtrip v [])
  simp only [List.append_nil, List.take_length] at h
  obtain ⟨_, h2, h3⟩ := h
  rw [h3] at h0 hv ⊢
  exact C08_roundtrip _ suffix off hoff h2 h0 hv

/-- C08: whatever the bytes, a base that is accepted lies strictly before the object and after the start of the file, and its
distance is exactly the one encoded. -/
theorem C08_backwards (buf : Bytes) (off base used : Nat) (hoff : off < 2 ^ 64) (h : ofsBase buf off = .ok (base, used)) :
    0 < base ∧ base < off ∧ used ≤ buf.length ∧ Varint.Spec.WellFormed (buf.take used) ∧ base + Varint.Spec.value (buf.take used) = off := by
  obtain ⟨bs, rest, rfl, h2, h3, h4, rfl, rfl⟩ := (ofsBase_ok _ _ _ _ hoff).mp h
  rw [List.take_left]
  refine ⟨by omega, by omega, by simp, h2, by omega⟩

theorem chain_ofs (p : Pack) (caches : Nat → Cache) (hw : WinOk p) (hf : ∀ id b, p.find id ≠ some b) :
    ∀ (fuel k off : Nat) (stack : List Elem), off < fuel → (chain p caches fuel k off stack).isSome := by
  intro fuel
  induction fuel with
  | zero => intros; omega
  | succ fuel ih =>
    intro k off stack hlt
    unfold chain
    cases caches k off with
    | some raw => rfl
    | none =>
      simp only []
      cases hu : unpackHeader p off with
      | err e => rfl
      | ub => rfl
      | ok x =>
        obtain ⟨type, size, curpos⟩ := x
        simp only []
        split
        · rfl
        · cases hg : getDeltaBase p curpos type off with
          | err e => rfl
          | ub => rfl
          | ok y =>
            obtain ⟨base, pos⟩ := y
            simp only []
            apply ih
            have h1 := header_lt p _ _ _ _ hw hu
            have := (getDeltaBase_ok p hw _ _ _ _ _ (by have := hw.1; omega)).mp hg
            cases this with
            | ofs bs rest _ _ h3 h4 _ => omega
            | ref b _ h2 _ => exact absurd h2 (hf _ _)

/-- C08: following offset deltas ends, for every pack whose reference deltas cannot be resolved inside it (in particular every
pack without reference deltas) and every starting offset: the number of rounds is bounded by the offset. -/
theorem C08_terminates (p : Pack) (caches : Nat → Cache) (hw : WinOk p) (hf : ∀ id b, p.find id ≠ some b) (off fuel : Nat)
    (h : off < fuel) : (unpack p caches fuel off).isSome := by
  have := chain_ofs p caches hw hf fuel 0 off [] h
  unfold unpack
  cases hc : chain p caches fuel 0 off [] with
  | none => rw [hc] at this; cases this
  | some r =>
    rcases r with ⟨stack, c⟩ | e | _
    · rcases c with _ | ⟨t, d⟩
      · cases stack with
        | nil => rfl
        | cons e stack => simp only []; split <;> rfl
      · simp only []; split
        · split <;> rfl
        · rfl
    · rfl
    · rfl

/-- C08 (why the condition on reference deltas is there): an entry that names its own id as its base keeps the reader busy for
ever: no number of rounds is enough. -/
theorem C08_ref_loop (p : Pack) (hw : WinOk p) (off : Nat) (id rest : Bytes) (hid : id.length = 20) (h0 : 0 < off)
    (hfile : p.file.drop off = 0x70 :: (id ++ rest)) (hfind : p.find id = some off) (fuel : Nat) :
    unpack p (fun _ _ => none) fuel off = none := by
  have hu : unpackHeader p off = .ok (7, 0, off + 1) :=
    (unpackHeader_ok p hw _ _ _ _).mpr ⟨[0x70], id ++ rest, 0, hfile, EncodesHeader.short 0x70 (by decide), by simp, rfl, rfl⟩
  have hdrop : p.file.drop (off + 1) = id ++ rest := by
    rw [← List.drop_drop, hfile]; rfl
  have hlen : off + 1 + 20 ≤ p.file.length := by
    have := congrArg List.length hdrop
    simp [hid] at this; omega
  have hg : getDeltaBase p (off + 1) 7 off = .ok (off, off + 1 + 20) := by
    refine (getDeltaBase_ok p hw _ _ _ _ _ (by have := hw.1; omega)).mpr (.ref off hlen ?_ h0)
    show p.find ((p.file.drop (off + 1)).take 20) = some off
    rw [hdrop, ← hid, List.take_left, hfind]
  have : ∀ fuel k stack, chain p (fun _ _ => none) fuel k off stack = none := by
    intro fuel
    induction fuel with
    | zero => intros; rfl
    | succ fuel ih =>
      intro k stack
      unfold chain
      simp only [hu, hg]
      rw [if_neg (by decide)]
      exact ih _ _
  unfold unpack
  rw [this]

/-- a delta at 20 bytes after its base: one byte; at 200 bytes: two -/
example : ofsBase [20, 99] 100 = .ok (80, 1) := by decide +kernel
example : ofsBase [0x80, 72, 99] 1000 = .ok (800, 2) := by decide +kernel
/-- its own offset, or before the start of the file -/
example : ofsBase [0] 100 = .err (-1) := by decide +kernel
example : ofsBase [100] 100 = .err (-1) := by decide +kernel

/-! ## C52: unpacking through the cache -/

/-- all that the cache may ever hold: objects of this pack under their offsets -/
def CacheOk (p : Pack) (c : Cache) : Prop := ∀ off raw, c off = some raw → (src p).Entry off raw.1 raw.2

theorem links_nil {p : Pack} {off root : Nat} {es : List Elem} (h : Links p off es root) (he : es = []) : root = off := by
  cases h with
  | nil => rfl
  | snoc => simp at he

/-- C52 (soundness): whatever the cache holds at each look-up (other threads may add and evict at any time), as long as it
holds objects of the pack, an object that is returned is the one the pack format defines, and so is everything handed to the
cache: the cache stays right. -/
theorem C52_unpack (p : Pack) (hw : WinOk p) (caches : Nat → Cache) (hc : ∀ k, CacheOk p (caches k)) (fuel off : Nat)
    (t : Nat) (d : Bytes) (adds : List (Nat × Raw)) (h : unpack p caches fuel off = some (.ok ((t, d), adds))) :
    (src p).Entry off t d ∧ ∀ x ∈ adds, (src p).Entry x.1 x.2.1 x.2.2 := by
  unfold unpack at h
  cases hch : chain p caches fuel 0 off [] with
  | none => rw [hch] at h; cases h
  | some r =>
    rw [hch] at h
    rcases r with ⟨stack, c⟩ | e | _
    · obtain ⟨es, root, hl, hr⟩ := chain_ok p caches _ _ _ _ _ _ hch
      rcases hr with ⟨k, ⟨t0, d0⟩, e1, rfl, rfl⟩ | ⟨type, size, curpos, e1, e2, rfl, rfl⟩
      · rw [List.append_nil] at h
        simp only [] at h
        have he := hc k root _ e1
        split at h
        · split at h
          · rename_i hes
            subst hes
            cases h
            have hro : root = off := links_nil hl rfl
            rw [← hro]
            exact ⟨he, by simp⟩
          · cases ha : applyLoop p t0 es none d0 [] with
            | err e => rw [ha] at h; cases h
            | ub => rw [ha] at h; cases h
            | ok x =>
              obtain ⟨d1, a1⟩ := x
              rw [ha] at h
              simp only [Res.bind_ok] at h
              cases h
              exact applyLoop_links p hw hl t d0 d none [] adds he (.inl rfl) (fun _ h => by cases h) ha
        · cases h
      · simp only [List.append_nil] at h
        split at h
        · rename_i ht
          cases hu : unpackCompressed p curpos size with
          | err e => rw [hu] at h; cases h
          | ub => rw [hu] at h; cases h
          | ok d0 =>
            rw [hu] at h
            simp only [Res.bind_ok] at h
            cases ha : applyLoop p type es (some root) d0 [] with
            | err e => rw [ha] at h; cases h
            | ub => rw [ha] at h; cases h
            | ok x =>
              obtain ⟨d1, a1⟩ := x
              rw [ha] at h
              simp only [Res.bind_ok] at h
              cases h
              obtain ⟨hd, rest, n, f1, f2, f3, f4, rfl⟩ := (unpackHeader_ok p hw _ _ _ _).mp e1
              have he : (src p).Entry root t d0 := .whole f1 f2 f3 f4 ht ((unpackCompressed_ok _ _ _ _).mp hu)
              exact applyLoop_links p hw hl t d0 d (some root) [] adds he (.inr rfl) (fun _ h => by cases h) ha
        · cases h
    · cases h
    · cases h

/-- C52 (completeness): an object that the pack defines is returned, for every content of the cache at every look-up. -/
theorem C52_complete (p : Pack) (hw : WinOk p) (caches : Nat → Cache) (hc : ∀ k, CacheOk p (caches k)) (off t : Nat) (d : Bytes)
    (he : (src p).Entry off t d) :
    ∃ N, ∀ fuel, N ≤ fuel → ∃ adds, unpack p caches fuel off = some (.ok ((t, d), adds)) := by
  have hE := E_of_entry p hw he
  obtain ⟨N, hN⟩ := chain_complete p caches (fun k o raw h => E_of_entry p hw (hc k o raw h)) hE
  refine ⟨N, fun fuel hf => ?_⟩
  obtain ⟨out, c, hch, es, d0, happ, hg⟩ := hN fuel hf 0 []
  have ht := E_types p hE
  unfold unpack
  rw [hch]
  rcases hg with ⟨rfl, rfl, e3⟩ | ⟨e, rfl, rfl, rfl, e4⟩
  · simp only [List.append_nil]
    rw [if_pos (c := t = COMMIT ∨ t = TREE ∨ t = BLOB ∨ t = TAG) ht]
    by_cases hes : es = []
    · rw [if_pos hes, e3 hes]; exact ⟨[], rfl⟩
    · obtain ⟨adds', ha⟩ := happ none []
      rw [if_neg hes, ha]
      exact ⟨adds', rfl⟩
  · obtain ⟨adds', ha⟩ := happ (some e.baseKey) []
    simp only [List.append_nil]
    rw [if_pos (c := e.type = COMMIT ∨ e.type = TREE ∨ e.type = BLOB ∨ e.type = TAG) ht, e4]
    simp only [Res.bind_ok, ha]
    exact ⟨adds', rfl⟩

/-- C52: the format gives an entry at most one meaning. -/
theorem C52_unique (p : Pack) (hw : WinOk p) (off t t' : Nat) (d d' : Bytes) (h : (src p).Entry off t d) (h' : (src p).Entry off t' d') :
    t' = t ∧ d' = d := E_det p (E_of_entry p hw h) (E_of_entry p hw h')

/-- C52: two readers with different caches that both succeed agree. -/
theorem C52_cache_independent (p : Pack) (hw : WinOk p) (c1 c2 : Nat → Cache) (h1 : ∀ k, CacheOk p (c1 k)) (h2 : ∀ k, CacheOk p (c2 k))
    (f1 f2 off : Nat) (x1 x2 : Raw) (a1 a2 : List (Nat × Raw)) (e1 : unpack p c1 f1 off = some (.ok (x1, a1)))
    (e2 : unpack p c2 f2 off = some (.ok (x2, a2))) : x1 = x2 := by
  obtain ⟨t1, d1⟩ := x1
  obtain ⟨t2, d2⟩ := x2
  obtain ⟨rfl, rfl⟩ := C52_unique p hw off _ _ _ _ (C52_unpack p hw c1 h1 _ _ _ _ _ e1).1 (C52_unpack p hw c2 h2 _ _ _ _ _ e2).1
  rfl

theorem resolveLoop_E (p : Pack) {off t : Nat} {d : Bytes} (h : E p off t d) : ∃ N, ∀ fuel, N ≤ fuel → resolveLoop p fuel off = some (.ok t) := by
  induction h with
  | whole h1 h2 h3 =>
    rename_i off t size pos d
    refine ⟨1, fun fuel hf => ?_⟩
    obtain ⟨f, rfl⟩ : ∃ f, fuel = f + 1 := ⟨fuel - 1, by omega⟩
    have hnd : isDelta t = false := by rcases h2 with rfl | rfl | rfl | rfl <;> rfl
    unfold resolveLoop
    rw [h1]; simp [hnd]
  | delta h1 h2 h3 h4 h5 h6 ih =>
    obtain ⟨N, hN⟩ := ih
    refine ⟨N + 1, fun fuel hf => ?_⟩
    obtain ⟨f, rfl⟩ : ∃ f, fuel = f + 1 := ⟨fuel - 1, by omega⟩
    unfold resolveLoop
    rw [h1]
    simp only [h2, h3, not_true_eq_false, if_false]
    exact hN f (by omega)

/-- the sizes at the start of a delta that applies are read from its first sixteen bytes -/
theorem readHeader_take (base delta out : Bytes) (h : Makes base delta out) :
    Delta.readHeader (delta.take 16) = .ok (base.length, out.length) := by
  obtain ⟨h1, h2, ops, is, rfl, ⟨m, e1, l1, hb⟩, ⟨m', e2, l2, ho⟩, _⟩ := h
  have hd : (h1 ++ h2 ++ ops).take 16 = h1 ++ (h2 ++ ops.take (16 - (h1 ++ h2).length)) := by
    rw [List.take_append, List.take_of_length_le (by simp; omega), List.append_assoc]
  rw [hd]
  have r1 := Delta.hdrSz_complete m h1 (h2 ++ ops.take (16 - (h1 ++ h2).length)) e1 0 0 (by omega) (by simp) (by simp)
  have r2 := Delta.hdrSz_complete m' h2 (ops.take (16 - (h1 ++ h2).length)) e2 0 0 (by omega) (by simp) (by simp)
  simp only [Nat.mul_zero, Nat.zero_add, Nat.pow_zero, Nat.mul_one] at r1 r2
  unfold Delta.readHeader
  rw [r1]
  simp only [Res.bind_ok]
  rw [r2, hb, ho]
  rfl

/-- C52: reading only the header of an object that the pack defines gives its type and the length of its contents. -/
theorem C52_header (p : Pack) (hw : WinOk p) (off t : Nat) (d : Bytes) (he : (src p).Entry off t d) :
    ∃ N, ∀ fuel, N ≤ fuel → resolveHeader p fuel off = some (.ok (t, d.length)) := by
  have hE := E_of_entry p hw he
  cases hE with
  | whole h1 h2 h3 =>
    refine ⟨0, fun fuel _ => ?_⟩
    have hnd : isDelta t = false := by rcases h2 with rfl | rfl | rfl | rfl <;> rfl
    unfold resolveHeader
    rw [h1]
    simp only [hnd]
    have := ((unpackCompressed_ok _ _ _ _).mp h3).2.2.1
    rw [this]; rfl
  | delta h1 h2 h3 h4 h5 h6 =>
    obtain ⟨N, hN⟩ := resolveLoop_E p h4
    refine ⟨N, fun fuel hf => ?_⟩
    unfold resolveHeader
    rw [h1]
    simp only [h2, if_true, h3]
    obtain ⟨s1, s2, s3, s4⟩ := (unpackCompressed_ok _ _ _ _).mp h5
    unfold readHeaderFromStream
    rw [(windowOpen_some p _ _).mpr ⟨s1, rfl⟩]
    have s2' : p.inflate (p.file.drop _) = some _ := s2
    simp only [s2', readHeader_take _ _ _ ((makes_iff _ _ _).mp h6), hN fuel hf]
    rfl

/-- C52 (what the code does with a corrupt stream): asking only for the header of a delta whose stream does not decompress
looks for sizes in memory that was never written. -/
theorem C52_header_corrupt (p : Pack) (off ty size curpos base pos fuel : Nat) (h1 : unpackHeader p off = .ok (ty, size, curpos))
    (h2 : isDelta ty = true) (h3 : getDeltaBase p curpos ty off = .ok (base, pos)) (h4 : pos + 20 ≤ p.file.length)
    (h5 : p.inflate (p.file.drop pos) = none) : resolveHeader p fuel off = some .ub := by
  unfold resolveHeader
  rw [h1]
  simp only [h2, if_true, h3]
  unfold readHeaderFromStream
  rw [(windowOpen_some p _ _).mpr ⟨h4, rfl⟩]
  simp only [h5]

instance : DecidableEq (Raw × List (Nat × Raw)) := inferInstanceAs (DecidableEq ((Nat × Bytes) × List (Nat × Nat × Bytes)))

/-! A pack with a blob `abcd` at 12 and, at 14, a delta against it that makes `cdxy`. "Compression" is a table. -/
def exPack : Pack where
  file := b!"PACK" ++ [0, 0, 0, 2, 0, 0, 0, 2] ++ [0x34, 1] ++ [0x68, 2, 2] ++ List.replicate 20 0
  left := fun _ => 1000
  find := fun _ => none
  inflate := fun b => match b.head? with | some 1 => some b!"abcd" | some 2 => some [4, 4, 0x91, 2, 2, 2, c!"x", c!"y"] | _ => none

example : WinOk exPack := ⟨by decide, fun _ => .inl (show 20 ≤ 1000 by decide)⟩
example : unpack exPack (fun _ _ => none) 10 14 = some (.ok ((3, b!"cdxy"), [(12, (3, b!"abcd"))])) := by decide +kernel
example : unpack exPack (fun _ o => if o = 12 then some (3, b!"abcd") else none) 10 14 = some (.ok ((3, b!"cdxy"), [])) := by
  decide +kernel
example : resolveHeader exPack 10 14 = some (.ok (3, 4)) := by decide +kernel
/-- so its meaning is defined, and an empty cache is a right one -/
example : (src exPack).Entry 14 3 b!"cdxy" :=
  (C52_unpack exPack ⟨by decide, fun _ => .inl (show 20 ≤ 1000 by decide)⟩ (fun _ _ => none) (fun _ _ _ h => by cases h) 10 14 _ _ _
    (show unpack exPack (fun _ _ => none) 10 14 = some (.ok ((3, b!"cdxy"), [(12, (3, b!"abcd"))])) by decide +kernel)).1

end Verif.Pack
