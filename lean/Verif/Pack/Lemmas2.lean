import Verif.Pack.Lemmas
namespace Verif.Pack
open Spec Verif.Delta.Spec

/-! ## the writer -/

theorem headerLoop_zero (c : Nat) : headerLoop c 0 = [c] := by unfold headerLoop; simp
theorem headerLoop_pos (c size : Nat) (h : size ≠ 0) :
    headerLoop c size = (c ||| 0x80) :: headerLoop (size % 128) (size / 128) := by
  rw [headerLoop, if_pos h, Nat.and_two_pow_sub_one_eq_mod _ 7, Nat.shiftRight_eq_div_pow]

theorem or80 (c : Nat) (h : c < 128) : c ||| 0x80 = c + 128 := by
  have := Nat.shiftLeft_add_eq_or_of_lt (b := c) (i := 7) h 1
  rw [Nat.or_comm, show (0x80 : Nat) = 1 <<< 7 from rfl, ← this]; omega

theorem ofNat_toNat (n : Nat) (h : n < 256) : (UInt8.ofNat n).toNat = n := by
  simp only [UInt8.toNat_ofNat']; omega

theorem headerLoop_encodes (size : Nat) : ∀ c, c < 128 → EncodesSize (c + 128 * size) ((headerLoop c size).map UInt8.ofNat) := by
  induction size using Nat.strongRecOn with
  | _ size ih =>
    intro c hc
    by_cases h : size = 0
    · subst h
      rw [headerLoop_zero]
      have := EncodesSize.last (UInt8.ofNat c) (by rw [ofNat_toNat c (by omega)]; exact hc)
      rw [ofNat_toNat c (by omega)] at this
      exact this
    · rw [headerLoop_pos _ _ h, or80 c hc]
      have h1 := ih (size / 128) (by omega) (size % 128) (by omega)
      have := EncodesSize.more (UInt8.ofNat (c + 128)) (by rw [ofNat_toNat _ (by omega)]; omega) h1
      rw [ofNat_toNat _ (by omega)] at this
      have e : (c + 128) % 128 + 128 * (size % 128 + 128 * (size / 128)) = c + 128 * size := by omega
      rw [e] at this
      exact this

theorem headerLoop_length (k : Nat) : ∀ (c size : Nat), size < 128 ^ k → (headerLoop c size).length ≤ k + 1 := by
  induction k with
  | zero =>
    intro c size h
    have : size = 0 := by simpa using h
    subst this
    rw [headerLoop_zero]; simp
  | succ k ih =>
    intro c size h
    by_cases h0 : size = 0
    · subst h0; rw [headerLoop_zero]; simp
    · rw [headerLoop_pos _ _ h0]
      have := ih (size % 128) (size / 128) (by rw [Nat.div_lt_iff_lt_mul (by decide)]; rwa [Nat.pow_succ] at h)
      simp; omega

theorem objectHeader_spec (type size : Nat) (h1 : 1 ≤ type) (h7 : type ≤ 7) (hs : size < 2 ^ 64) :
    ∃ h, objectHeader size type = .ok h ∧ EncodesHeader type size h ∧ h.length ≤ 10 := by
  have hc : ((type <<< 4) ||| (size &&& 15)) % 256 = type * 16 + size % 16 := by
    rw [and15, ← Nat.shiftLeft_add_eq_or_of_lt (i := 4) (by omega), Nat.shiftLeft_eq]; omega
  unfold objectHeader
  rw [if_neg (by unfold COMMIT REF_DELTA; omega), hc, Nat.shiftRight_eq_div_pow]
  refine ⟨_, rfl, ?_, ?_⟩
  · by_cases h0 : size / 2 ^ 4 = 0
    · rw [h0, headerLoop_zero]
      have := EncodesHeader.short (UInt8.ofNat (type * 16 + size % 16)) (by rw [ofNat_toNat _ (by omega)]; omega)
      rw [ofNat_toNat _ (by omega)] at this
      rw [show (type * 16 + size % 16) / 16 = type by omega, show (type * 16 + size % 16) % 16 = size by omega] at this
      exact this
    · rw [headerLoop_pos _ _ h0, or80 _ (by omega)]
      have he := headerLoop_encodes (size / 2 ^ 4 / 128) (size / 2 ^ 4 % 128) (by omega)
      have := EncodesHeader.long (UInt8.ofNat (type * 16 + size % 16 + 128)) (by rw [ofNat_toNat _ (by omega)]; omega) he
      rw [ofNat_toNat _ (by omega)] at this
      rw [show (type * 16 + size % 16 + 128) / 16 % 8 = type by omega,
        show (type * 16 + size % 16 + 128) % 16 + 16 * (size / 2 ^ 4 % 128 + 128 * (size / 2 ^ 4 / 128)) = size by omega] at this
      exact this
  · rw [List.length_map]
    have h63 : size / 2 ^ 4 < 128 ^ 9 := by
      have : (128 : Nat) ^ 9 = 2 ^ 63 := by decide
      omega
    have := headerLoop_length 9 (type * 16 + size % 16) (size / 2 ^ 4) h63
    omega

/-! ## refused headers -/

theorem unpackLoop_trunc (bs : Bytes) : ∀ (c : UInt8) (size shift used : Nat), 128 ≤ c.toNat → (∀ x ∈ bs, 128 ≤ x.toNat) →
    shift + 7 * (bs.length - 1) < 64 → unpackLoop c.toNat size shift used bs = .err EBUFS := by
  induction bs with
  | nil =>
    intro c size shift used hc _ _
    unfold unpackLoop
    rw [if_neg (fun h => by have := (and80 c).mp h; omega)]
  | cons b bs ih =>
    intro c size shift used hc hb hs
    unfold unpackLoop
    rw [if_neg (fun h => by have := (and80 c).mp h; omega)]
    simp only []
    rw [if_neg (by omega)]
    by_cases hbs : bs = []
    · subst hbs
      have := hb b (by simp)
      unfold unpackLoop
      rw [if_neg (fun h => by have := (and80 b).mp h; omega)]
    · have : 0 < bs.length := List.length_pos_iff.mpr hbs
      exact ih b _ _ _ (hb b (by simp)) (fun x hx => hb x (by simp [hx])) (by simp at hs; omega)

theorem unpackLoop_over (bs rest : Bytes) (hr : rest ≠ []) : ∀ (c : UInt8) (size shift used : Nat), 128 ≤ c.toNat →
    (∀ x ∈ bs, 128 ≤ x.toNat) → 64 ≤ shift + 7 * bs.length → unpackLoop c.toNat size shift used (bs ++ rest) = .err (-1) := by
  induction bs with
  | nil =>
    intro c size shift used hc _ hs
    obtain ⟨r, rest, rfl⟩ := List.exists_cons_of_ne_nil hr
    unfold unpackLoop
    rw [if_neg (fun h => by have := (and80 c).mp h; omega)]
    simp only [List.nil_append]
    rw [if_pos (by simpa using hs)]
  | cons b bs ih =>
    intro c size shift used hc hb hs
    unfold unpackLoop
    rw [if_neg (fun h => by have := (and80 c).mp h; omega)]
    simp only [List.cons_append]
    split
    · rfl
    · exact ih b _ _ _ (hb b (by simp)) (fun x hx => hb x (by simp [hx])) (by simp at hs; omega)

/-! ## entries as the code sees them -/

/-- `Source.Entry` in terms of the functions -/
inductive E (p : Pack) : Nat → Nat → Bytes → Prop
  | whole {off t size pos d} : unpackHeader p off = .ok (t, size, pos) → (t = 1 ∨ t = 2 ∨ t = 3 ∨ t = 4) →
      unpackCompressed p pos size = .ok d → E p off t d
  | delta {off ty size curpos base pos t db delta out} : unpackHeader p off = .ok (ty, size, curpos) → isDelta ty = true →
      getDeltaBase p curpos ty off = .ok (base, pos) → E p base t db → unpackCompressed p pos size = .ok delta →
      Delta.apply db delta = .ok out → E p off t out

theorem E_of_entry (p : Pack) (hw : WinOk p) {off t : Nat} {d : Bytes} (h : (src p).Entry off t d) : E p off t d := by
  induction h with
  | whole h1 h2 h3 h4 h5 h6 =>
    refine .whole ((unpackHeader_ok p hw _ _ _ _).mpr ⟨_, _, _, h1, h2, h3, h4, rfl⟩) h5 ((unpackCompressed_ok _ _ _ _).mpr h6)
  | delta h1 h2 h3 h4 hb he hs hm ih =>
    have hu := (unpackHeader_ok p hw _ _ _ _).mpr ⟨_, _, _, h1, h2, h3, h4, rfl⟩
    have := header_lt p _ _ _ _ hw hu
    refine .delta hu (by cases hb <;> rfl)
      ((getDeltaBase_ok p hw _ _ _ _ _ (by have := hw.1; omega)).mpr hb) ih ((unpackCompressed_ok _ _ _ _).mpr hs)
      ((makes_iff _ _ _).mpr hm)

theorem E_det (p : Pack) {off t : Nat} {d : Bytes} (h : E p off t d) : ∀ {t' : Nat} {d' : Bytes}, E p off t' d' → t' = t ∧ d' = d := by
  induction h with
  | whole h1 h2 h3 =>
    intro t' d' h'
    cases h' with
    | whole h1' h2' h3' =>
      rw [h1] at h1'; cases h1'
      rw [h3] at h3'; cases h3'
      exact ⟨rfl, rfl⟩
    | delta h1' h2' =>
      rw [h1] at h1'; cases h1'
      rcases h2 with rfl | rfl | rfl | rfl <;> cases h2'
  | delta h1 h2 h3 h4 h5 h6 ih =>
    intro t' d' h'
    cases h' with
    | whole h1' h2' h3' =>
      rw [h1] at h1'; cases h1'
      rcases h2' with rfl | rfl | rfl | rfl <;> cases h2
    | delta h1' h2' h3' h4' h5' h6' =>
      rw [h1] at h1'; cases h1'
      rw [h3] at h3'; cases h3'
      obtain ⟨rfl, rfl⟩ := ih h4'
      rw [h5] at h5'; cases h5'
      rw [h6] at h6'; cases h6'
      exact ⟨rfl, rfl⟩

/-- the outcome of `chain` from which the rest of the unpacking makes `d` -/
def Good (p : Pack) (t : Nat) (d : Bytes) (stack out : List Elem) (c : Option Raw) : Prop :=
  ∃ es d0, (∀ key adds, ∃ adds', applyLoop p t es key d0 adds = .ok (d, adds')) ∧
    ((c = some (t, d0) ∧ out = es ++ stack ∧ (es = [] → d0 = d)) ∨
     (∃ e, c = none ∧ out = e :: (es ++ stack) ∧ e.type = t ∧ unpackCompressed p e.offset e.size = .ok d0))

theorem E_types (p : Pack) {off t : Nat} {d : Bytes} (h : E p off t d) : t = 1 ∨ t = 2 ∨ t = 3 ∨ t = 4 := by
  induction h with
  | whole _ h _ => exact h
  | delta _ _ _ _ _ _ ih => exact ih

theorem chain_complete (p : Pack) (caches : Nat → Cache) (hc : ∀ k o raw, caches k o = some raw → E p o raw.1 raw.2)
    {off t : Nat} {d : Bytes} (h : E p off t d) :
    ∃ N, ∀ fuel, N ≤ fuel → ∀ k stack, ∃ out c, chain p caches fuel k off stack = some (.ok (out, c)) ∧ Good p t d stack out c := by
  have cached : ∀ {off t d fuel k raw} (stack : List Elem), E p off t d → 1 ≤ fuel → caches k off = some raw →
      ∃ out c, chain p caches fuel k off stack = some (.ok (out, c)) ∧ Good p t d stack out c := by
    intro off t d fuel k raw stack he hf hr
    obtain ⟨f, rfl⟩ : ∃ f, fuel = f + 1 := ⟨fuel - 1, by omega⟩
    obtain ⟨e1, e2⟩ := E_det p he (hc k off raw hr)
    have : raw = (t, d) := by rw [← e1, ← e2]
    subst this
    refine ⟨stack, some (t, d), by unfold chain; rw [hr], [], d, fun key adds => ⟨adds, rfl⟩, .inl ⟨rfl, rfl, fun _ => rfl⟩⟩
  induction h with
  | whole h1 h2 h3 =>
    rename_i off t size pos d
    refine ⟨1, fun fuel hf k stack => ?_⟩
    cases hr : caches k off with
    | some raw => exact cached stack (.whole h1 h2 h3) hf hr
    | none =>
      obtain ⟨f, rfl⟩ : ∃ f, fuel = f + 1 := ⟨fuel - 1, by omega⟩
      have hnd : isDelta t = false := by rcases h2 with rfl | rfl | rfl | rfl <;> rfl
      refine ⟨⟨off, pos, size, t⟩ :: stack, none, ?_, [], d, fun key adds => ⟨adds, rfl⟩, .inr ⟨_, rfl, rfl, rfl, h3⟩⟩
      unfold chain
      rw [hr, h1]
      simp [hnd]
  | delta h1 h2 h3 h4 h5 h6 ih =>
    rename_i off ty size curpos base pos t db delta out
    obtain ⟨N, hN⟩ := ih
    refine ⟨N + 1, fun fuel hf k stack => ?_⟩
    cases hr : caches k off with
    | some raw => exact cached stack (.delta h1 h2 h3 h4 h5 h6) (by omega) hr
    | none =>
      obtain ⟨f, rfl⟩ : ∃ f, fuel = f + 1 := ⟨fuel - 1, by omega⟩
      obtain ⟨out', c, hch, es, d0, happ, hg⟩ := hN f (by omega) (k + 1) (⟨off, pos, size, ty⟩ :: stack)
      refine ⟨out', c, ?_, es ++ [⟨off, pos, size, ty⟩], d0, ?_, ?_⟩
      · unfold chain
        rw [hr, h1]
        simp only [h2, not_true_eq_false, if_false, h3]
        exact hch
      · intro key adds
        obtain ⟨adds', ha⟩ := happ key adds
        rw [applyLoop_append, ha]
        simp only [Res.bind_ok, applyLoop, h5, h6]
        exact ⟨_, rfl⟩
      · rcases hg with ⟨e1, e2, e3⟩ | ⟨e, e1, e2, e3, e4⟩
        · exact .inl ⟨e1, by simp [e2], by simp⟩
        · exact .inr ⟨e, e1, by simp [e2], e3, e4⟩

end Verif.Pack
