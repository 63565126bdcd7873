import Verif.Pack.Model
import Verif.Pack.Spec
import Verif.Varint.Props
import Verif.Delta.Props
namespace Verif.Pack
open Spec Verif.Delta.Spec

theorem and80 (c : UInt8) : (c.toNat &&& 0x80 = 0) ↔ c.toNat < 128 := by
  revert c; decide +kernel
theorem and7f (c : UInt8) : c.toNat &&& 0x7f = c.toNat % 128 := by
  exact Nat.and_two_pow_sub_one_eq_mod _ 7
theorem and15 (n : Nat) : n &&& 15 = n % 16 := Nat.and_two_pow_sub_one_eq_mod _ 4
theorem typeBits (c : UInt8) : (c.toNat >>> 4) &&& 7 = c.toNat / 16 % 8 := by
  rw [Nat.and_two_pow_sub_one_eq_mod _ 3, Nat.shiftRight_eq_div_pow]

theorem encodesSize_ne {n : Nat} {bs : Bytes} (h : EncodesSize n bs) : bs ≠ [] := by cases h <;> simp

/-- exactly what the loop accepts -/
theorem unpackLoop_ok (buf : Bytes) : ∀ (c : UInt8) (size shift used s u : Nat), size < 2 ^ 64 → shift < 64 + 7 →
    (unpackLoop c.toNat size shift used buf = .ok (s, u) ↔
      (c.toNat < 128 ∧ s = size ∧ u = used) ∨
      (128 ≤ c.toNat ∧ ∃ bs rest n, buf = bs ++ rest ∧ EncodesSize n bs ∧ shift + 7 * (bs.length - 1) < 64 ∧
        s = (size + n * 2 ^ shift) % 2 ^ 64 ∧ u = used + bs.length)) := by
  induction buf with
  | nil =>
    intro c size shift used s u hs hsh
    unfold unpackLoop
    by_cases hc : c.toNat < 128
    · rw [if_pos ((and80 c).mpr hc)]
      constructor
      · intro h; cases h; exact .inl ⟨hc, rfl, rfl⟩
      · rintro (⟨_, rfl, rfl⟩ | ⟨h, _⟩)
        · rfl
        · omega
    · rw [if_neg (fun h => hc ((and80 c).mp h))]
      constructor
      · intro h; cases h
      · rintro (⟨h, _⟩ | ⟨_, bs, rest, n, hb, he, _⟩)
        · omega
        · have := encodesSize_ne he
          simp at hb; exact absurd hb.1 this
  | cons b buf ih =>
    intro c size shift used s u hs hsh
    unfold unpackLoop
    by_cases hc : c.toNat < 128
    · rw [if_pos ((and80 c).mpr hc)]
      constructor
      · intro h; cases h; exact .inl ⟨hc, rfl, rfl⟩
      · rintro (⟨_, rfl, rfl⟩ | ⟨h, _⟩)
        · rfl
        · omega
    · rw [if_neg (fun h => hc ((and80 c).mp h))]
      simp only []
      by_cases h64 : 64 ≤ shift
      · rw [if_pos h64]
        constructor
        · intro h; cases h
        · rintro (⟨h, _⟩ | ⟨_, bs, rest, n, hb, he, hl, _⟩) <;> omega
      · rw [if_neg h64, ih b _ _ _ _ _ (Nat.mod_lt _ (by decide)) (by omega), and7f, Nat.shiftLeft_eq]
        have e1 : (size + b.toNat % 128 * 2 ^ shift % 2 ^ 64) % 2 ^ 64 = (size + b.toNat % 128 * 2 ^ shift) % 2 ^ 64 := by
          rw [Nat.add_mod, Nat.mod_mod, ← Nat.add_mod]
        rw [e1]
        constructor
        · rintro (⟨hb, rfl, rfl⟩ | ⟨hb, bs, rest, n, rfl, he, hl, rfl, rfl⟩)
          · refine .inr ⟨by omega, [b], buf, b.toNat, rfl, .last b hb, by simp; omega, ?_, by simp⟩
            rw [Nat.mod_eq_of_lt hb]
          · refine .inr ⟨by omega, b :: bs, rest, _, rfl, .more b hb he, ?_, ?_, by simp; omega⟩
            · have : 0 < bs.length := List.length_pos_iff.mpr (encodesSize_ne he)
              simp; omega
            · rw [Nat.mod_add_mod]
              congr 1
              rw [Nat.add_mul, Nat.pow_add]
              have : 128 * n * 2 ^ shift = n * (2 ^ shift * 2 ^ 7) := by
                rw [show (2 : Nat) ^ 7 = 128 from rfl]; ac_rfl
              omega
        · rintro (⟨h, _⟩ | ⟨_, bs, rest, n, hb, he, hl, rfl, rfl⟩)
          · omega
          · cases he with
            | last c' hc' =>
              simp at hb; obtain ⟨rfl, rfl⟩ := hb
              refine .inl ⟨hc', by rw [Nat.mod_eq_of_lt hc'], by simp⟩
            | more c' hc' he' =>
              rename_i n' bs'
              simp at hb; obtain ⟨rfl, rfl⟩ := hb
              have hp : 0 < bs'.length := List.length_pos_iff.mpr (encodesSize_ne he')
              refine .inr ⟨hc', bs', rest, n', rfl, he', by simp at hl; omega, ?_, by simp; omega⟩
              rw [Nat.mod_add_mod]
              congr 1
              rw [Nat.add_mul, Nat.pow_add]
              have : 128 * n' * 2 ^ shift = n' * (2 ^ shift * 2 ^ 7) := by
                rw [show (2 : Nat) ^ 7 = 128 from rfl]; ac_rfl
              omega

theorem unpackLoop_ne_ub (buf : Bytes) : ∀ (c size shift used : Nat), unpackLoop c size shift used buf ≠ .ub := by
  induction buf with
  | nil => intro c size shift used; unfold unpackLoop; split <;> simp
  | cons b buf ih =>
    intro c size shift used; unfold unpackLoop; split
    · simp
    · simp only []; split
      · simp
      · exact ih _ _ _ _

theorem unpackHeader1_ok (buf : Bytes) (t s u : Nat) :
    unpackHeader1 buf = .ok (t, s, u) ↔
      ∃ h rest n, buf = h ++ rest ∧ EncodesHeader t n h ∧ h.length ≤ 10 ∧ s = n % 2 ^ 64 ∧ u = h.length := by
  cases buf with
  | nil =>
    simp only [unpackHeader1]
    constructor
    · intro h; cases h
    · rintro ⟨h, rest, n, hb, he, _⟩
      cases he <;> simp at hb
  | cons b buf =>
    have hb := b.toNat_lt
    have key := fun s u => unpackLoop_ok buf b (b.toNat % 16) 4 1 s u (by omega) (by omega)
    simp only [unpackHeader1, typeBits, and15]
    constructor
    · intro h
      cases hu : unpackLoop b.toNat (b.toNat % 16) 4 1 buf with
      | err e => rw [hu] at h; cases h
      | ub => rw [hu] at h; cases h
      | ok x =>
        obtain ⟨s', u'⟩ := x
        rw [hu] at h
        cases h
        rcases (key s' u').mp hu with ⟨hc, rfl, rfl⟩ | ⟨hc, bs, rest, n, rfl, he, hl, rfl, rfl⟩
        · refine ⟨[b], buf, b.toNat % 16, rfl, ?_, by simp, by omega, rfl⟩
          have := EncodesHeader.short b hc
          rwa [show b.toNat / 16 % 8 = b.toNat / 16 by omega]
        · refine ⟨b :: bs, rest, _, rfl, .long b hc he, by simp; omega, ?_, by simp; omega⟩
          congr 1
          omega
    · rintro ⟨h, rest, n, hb, he, hl, rfl, rfl⟩
      cases he with
      | short c hc =>
        simp at hb; obtain ⟨rfl, rfl⟩ := hb
        rw [(key (b.toNat % 16) 1).mpr (.inl ⟨hc, rfl, rfl⟩)]
        show Res.ok _ = _
        rw [show b.toNat / 16 % 8 = b.toNat / 16 by omega, Nat.mod_eq_of_lt (a := b.toNat % 16) (by omega)]; rfl
      | long c hc he =>
        rename_i n bs
        simp at hb; obtain ⟨rfl, rfl⟩ := hb
        rw [(key ((b.toNat % 16 + 16 * n) % 2 ^ 64) (1 + bs.length)).mpr
          (.inr ⟨hc, bs, rest, n, rfl, he, by simp at hl; omega, by congr 1; omega, rfl⟩)]
        show Res.ok _ = _
        simp; omega

theorem unpackLoop_take (buf : Bytes) : ∀ (c : UInt8) (size shift used m : Nat), 1 ≤ m → 64 ≤ shift + 7 * (m - 1) →
    unpackLoop c.toNat size shift used (buf.take m) = unpackLoop c.toNat size shift used buf := by
  induction buf with
  | nil => intros; simp
  | cons b buf ih =>
    intro c size shift used m hm hsh
    obtain ⟨m, rfl⟩ : ∃ k, m = k + 1 := ⟨m - 1, by omega⟩
    rw [List.take_succ_cons]
    unfold unpackLoop
    split
    · rfl
    · simp only []
      split
      · rfl
      · exact ih _ _ _ _ _ (by omega) (by omega)

theorem unpackHeader1_take (buf : Bytes) (m : Nat) (h : 20 ≤ m) : unpackHeader1 (buf.take m) = unpackHeader1 buf := by
  cases buf with
  | nil => simp
  | cons b buf =>
    obtain ⟨m, rfl⟩ : ∃ k, m = k + 1 := ⟨m - 1, by omega⟩
    rw [List.take_succ_cons]
    simp only [unpackHeader1]
    rw [unpackLoop_take buf b _ _ _ m (by omega) (by omega)]

/-! ## offset deltas -/

theorem ofsLoop_decode (buf : Bytes) : ∀ (x : UInt64) (c : UInt8) (used : Nat) (r : UInt64 × Nat),
    ofsLoop x c used buf = .ok r ↔ Varint.decodeLoop x c used buf = .ok r := by
  induction buf with
  | nil =>
    intro x c used r
    unfold ofsLoop Varint.decodeLoop
    split
    · rfl
    · constructor
      · intro h; cases h
      · simp only []
        intro h; split at h <;> cases h
  | cons b buf ih =>
    intro x c used r
    unfold ofsLoop Varint.decodeLoop
    split
    · rfl
    · by_cases hov : x + 1 = 0 ∨ (x + 1) &&& ((~~~ (0 : UInt64)) <<< (57 : UInt64)) ≠ (0 : UInt64)
      · simp only []
        rw [if_pos hov, if_pos (c := x + 1 = 0 ∨ Varint.msb7 (x + 1) ≠ 0) hov]
      · simp only []
        rw [if_neg hov, if_neg (c := x + 1 = 0 ∨ Varint.msb7 (x + 1) ≠ 0) hov]; exact ih _ _ _ _

theorem ofsLoop_ne_ub (buf : Bytes) : ∀ (x : UInt64) (c : UInt8) (used : Nat), ofsLoop x c used buf ≠ .ub := by
  induction buf with
  | nil => intro x c used; unfold ofsLoop; split <;> simp
  | cons b buf ih =>
    intro x c used; unfold ofsLoop; split
    · simp
    · simp only []; split
      · simp
      · exact ih _ _ _

theorem ofsBase_ok (buf : Bytes) (off base u : Nat) (hoff : off < 2 ^ 64) :
    ofsBase buf off = .ok (base, u) ↔
      ∃ bs rest, buf = bs ++ rest ∧ Varint.Spec.WellFormed bs ∧ 0 < Varint.Spec.value bs ∧ Varint.Spec.value bs < off ∧
        base = off - Varint.Spec.value bs ∧ u = bs.length := by
  have hd : ∀ c buf' r, ofsLoop (c &&& 127).toUInt64 c 1 buf' = .ok r ↔ Varint.decode (c :: buf') = .ok r := by
    intro c buf' r
    exact ofsLoop_decode buf' _ _ _ _
  cases buf with
  | nil =>
    simp only [ofsBase]
    constructor
    · intro h; cases h
    · rintro ⟨bs, rest, hb, hw, _⟩
      simp at hb; rw [hb.1] at hw; exact hw.elim
  | cons c buf =>
    simp only [ofsBase]
    constructor
    · intro h
      cases hu : ofsLoop (c &&& 127).toUInt64 c 1 buf with
      | err e => rw [hu] at h; cases h
      | ub => rw [hu] at h; cases h
      | ok r =>
        obtain ⟨x, n⟩ := r
        rw [hu] at h
        simp only [Res.bind_ok] at h
        split at h
        · cases h
        · rename_i hx
          cases h
          obtain ⟨h1, h2, h3⟩ := Varint.C01_decode_sound _ _ _ ((hd c buf _).mp hu)
          have hx0 : x.toNat ≠ 0 := fun e => hx (.inl (UInt64.toNat_inj.mp e))
          refine ⟨(c :: buf).take u, (c :: buf).drop u, by rw [List.take_append_drop], h2, by omega, by omega, by rw [h3], ?_⟩
          simp only [List.length_take]; omega
    · rintro ⟨bs, rest, hb, hw, h0, h1, rfl, rfl⟩
      obtain ⟨v, h2, h3⟩ := (Varint.C01_decode_exact bs rest hw).1 (by omega)
      rw [← hb] at h2
      rw [(hd c buf _).mpr h2]
      simp only [Res.bind_ok]
      rw [if_neg]
      · rw [h3]; rfl
      · rintro (rfl | h)
        · simp at h3; omega
        · omega

theorem ofsLoop_take (buf : Bytes) : ∀ (j : Nat) (x : UInt64) (c : UInt8) (used m : Nat), 1 ≤ m → 10 ≤ j + m → x.toNat + 1 ≥ 128 ^ j → j ≤ 9 →
    ofsLoop x c used (buf.take m) = ofsLoop x c used buf := by
  induction buf with
  | nil => intros; simp
  | cons b buf ih =>
    intro j x c used m hm hj hx hj9
    obtain ⟨m, rfl⟩ : ∃ k, m = k + 1 := ⟨m - 1, by omega⟩
    rw [List.take_succ_cons]
    unfold ofsLoop
    split
    · rfl
    · simp only []
      split
      · rfl
      · rename_i hov
        have hlt : x.toNat + 1 < 2 ^ 57 := by
          exact Nat.lt_of_not_le (fun h => hov ((Varint.add1 x).mpr h))
        have hj8 : j ≤ 8 := by
          rcases Nat.lt_or_ge 8 j with h | h
          · have : 128 ^ 9 ≤ 128 ^ j := Nat.pow_le_pow_right (by decide) h
            omega
          · exact h
        refine ih (j + 1) _ _ _ _ (by omega) (by omega) ?_ (by omega)
        have e : (((x + 1) <<< 7) + (b &&& 127).toUInt64).toNat = (x.toNat + 1) * 128 + b.toNat % 128 := by
          rw [Varint.shl_add x b hlt]
        rw [e, Nat.pow_succ]
        have := Nat.mul_le_mul_right 128 hx
        omega

theorem ofsBase_take (buf : Bytes) (off m : Nat) (h : 20 ≤ m) : ofsBase (buf.take m) off = ofsBase buf off := by
  cases buf with
  | nil => simp
  | cons b buf =>
    obtain ⟨m, rfl⟩ : ∃ k, m = k + 1 := ⟨m - 1, by omega⟩
    rw [List.take_succ_cons]
    simp only [ofsBase]
    rw [ofsLoop_take buf 0 _ _ _ m (by omega) (by omega) (by simp) (by omega)]

/-! ## windows -/

/-- a window holds at least twenty bytes, or all that is left of the file -/
def WinOk (p : Pack) : Prop := p.file.length < 2 ^ 63 ∧ ∀ off, 20 ≤ p.left off ∨ p.file.length - off ≤ p.left off

def src (p : Pack) : Source := ⟨p.file, p.find, p.inflate⟩

theorem unpackHeader_ok (p : Pack) (hw : WinOk p) (off t s pos : Nat) :
    unpackHeader p off = .ok (t, s, pos) ↔
      ∃ h rest n, p.file.drop off = h ++ rest ∧ EncodesHeader t n h ∧ h.length ≤ 10 ∧ s = n % 2 ^ 64 ∧ pos = off + h.length := by
  have hwin : unpackHeader1 (p.window off) = unpackHeader1 (p.file.drop off) := by
    unfold Pack.window
    rcases hw.2 off with h | h
    · exact unpackHeader1_take _ _ h
    · rw [List.take_of_length_le (by simpa using h)]
  unfold unpackHeader
  rw [hwin]
  constructor
  · intro h
    cases hu : unpackHeader1 (p.file.drop off) with
    | err e => rw [hu] at h; simp only [] at h; split at h <;> cases h
    | ub => rw [hu] at h; cases h
    | ok x =>
      obtain ⟨t', s', u'⟩ := x
      rw [hu] at h
      cases h
      obtain ⟨h, rest, n, h1, h2, h3, h4, h5⟩ := (unpackHeader1_ok _ _ _ _).mp hu
      exact ⟨h, rest, n, h1, h2, h3, h4, by omega⟩
  · rintro ⟨h, rest, n, h1, h2, h3, h4, h5⟩
    rw [(unpackHeader1_ok _ t s h.length).mpr ⟨h, rest, n, h1, h2, h3, h4, rfl⟩, h5]

theorem windowOpen_some (p : Pack) (off : Nat) (w : Bytes) : p.windowOpen off = some w ↔ off + 20 ≤ p.file.length ∧ w = p.window off := by
  unfold Pack.windowOpen OIDSZ
  constructor
  · intro h
    split at h
    · cases h
    · cases h; exact ⟨by omega, rfl⟩
  · rintro ⟨h, rfl⟩
    rw [if_neg (by omega)]

theorem drop_ne_nil {α : Type} (l : List α) (n : Nat) {h rest : List α} (e : l.drop n = h ++ rest) (hh : h ≠ []) : n < l.length := by
  rcases Nat.lt_or_ge n l.length with h1 | h1
  · exact h1
  · rw [List.drop_eq_nil_of_le h1] at e
    have := congrArg List.length e
    simp at this
    exact absurd (List.length_eq_zero_iff.mp (by omega)) hh

theorem getDeltaBase_ok (p : Pack) (hw : WinOk p) (off curpos t base pos : Nat) (hoff : off < 2 ^ 64) :
    getDeltaBase p curpos t off = .ok (base, pos) ↔ (src p).Base off curpos t base pos := by
  have hl : ∀ pos, pos + 20 ≤ p.file.length → 20 ≤ p.left pos := by
    intro pos h; rcases hw.2 pos with h' | h' <;> omega
  unfold getDeltaBase
  constructor
  · intro h
    cases hwo : p.windowOpen curpos with
    | none => rw [hwo] at h; cases h
    | some w =>
      obtain ⟨h1, rfl⟩ := (windowOpen_some p curpos w).mp hwo
      rw [hwo] at h
      simp only [] at h
      split at h
      · rename_i ht
        unfold Pack.window at h
        rw [ofsBase_take _ _ _ (hl _ h1)] at h
        cases hu : ofsBase (p.file.drop curpos) off with
        | err e => rw [hu] at h; cases h
        | ub => rw [hu] at h; cases h
        | ok x =>
          obtain ⟨b, u⟩ := x
          rw [hu] at h
          simp only [Res.bind_ok] at h
          split at h
          · cases h
          · cases h
            obtain ⟨bs, rest, h2, h3, h4, h5, rfl, rfl⟩ := (ofsBase_ok _ _ _ _ hoff).mp hu
            rw [ht]
            exact .ofs bs rest h2 h3 h4 h5 h1
      · split at h
        · rename_i ht
          split at h
          · cases h
          · have e : (p.window curpos).take OIDSZ = (p.file.drop curpos).take 20 := by
              unfold Pack.window OIDSZ
              rw [List.take_take, Nat.min_eq_left (hl _ h1)]
            rw [e] at h
            cases hf : p.find ((p.file.drop curpos).take 20) with
            | none => rw [hf] at h; cases h
            | some b =>
              rw [hf] at h
              simp only [] at h
              split at h
              · cases h
              · cases h
                rw [ht]
                exact .ref _ h1 hf (by omega)
        · cases h
  · intro h
    cases h with
    | ofs bs rest h2 h3 h4 h5 h1 =>
      rw [(windowOpen_some p curpos _).mpr ⟨h1, rfl⟩]
      simp only [OFS_DELTA, if_true]
      have := (ofsBase_ok (p.file.drop curpos) off _ _ hoff).mpr ⟨bs, rest, h2, h3, h4, h5, rfl, rfl⟩
      unfold Pack.window
      rw [ofsBase_take _ _ _ (hl _ h1), this]
      simp only [Res.bind_ok]
      rw [if_neg (by omega)]; rfl
    | ref b h1 hf hb =>
      rw [(windowOpen_some p curpos _).mpr ⟨h1, rfl⟩]
      have e : (p.window curpos).take 20 = (p.file.drop curpos).take 20 := by
        unfold Pack.window
        rw [List.take_take, Nat.min_eq_left (hl _ h1)]
      have hlen : 20 ≤ (p.window curpos).length := by
        unfold Pack.window
        have := hl _ h1
        have h1' : curpos + 20 ≤ p.file.length := h1
        simp; omega
      simp only []
      rw [if_neg (show ¬ 7 = OFS_DELTA by decide), if_pos (show 7 = REF_DELTA from rfl),
        if_neg (show ¬ (p.window curpos).length < OIDSZ by unfold OIDSZ; omega), show OIDSZ = 20 from rfl, e]
      have hf' : p.find ((p.file.drop curpos).take 20) = some base := hf
      rw [hf']
      simp only []
      rw [if_neg (by omega)]

theorem unpackCompressed_ok (p : Pack) (pos size : Nat) (d : Bytes) :
    unpackCompressed p pos size = .ok d ↔ (src p).Stream pos size d := by
  unfold unpackCompressed Source.Stream
  constructor
  · intro h
    split at h
    · cases h
    · cases hw : p.windowOpen pos with
      | none => rw [hw] at h; cases h
      | some w =>
        rw [hw] at h
        simp only [] at h
        cases hi : p.inflate (p.file.drop pos) with
        | none => rw [hi] at h; cases h
        | some d' =>
          rw [hi] at h
          simp only [] at h
          split at h
          · cases h
            exact ⟨((windowOpen_some _ _ _).mp hw).1, hi, by assumption, by omega⟩
          · cases h
  · rintro ⟨h1, h2, h3, h4⟩
    rw [if_neg (by omega), (windowOpen_some p pos _).mpr ⟨h1, rfl⟩]
    have h2' : p.inflate (p.file.drop pos) = some d := h2
    simp only [h2', h3, if_true]

theorem header_lt (p : Pack) (off t s pos : Nat) (hw : WinOk p) (h : unpackHeader p off = .ok (t, s, pos)) : off < p.file.length := by
  obtain ⟨h, rest, n, h1, h2, _⟩ := (unpackHeader_ok p hw off t s pos).mp h
  exact drop_ne_nil _ _ h1 (by cases h2 <;> simp)

/-! ## chains -/

/-- the elements pushed while walking from `off` to the base at `root`, deepest first -/
inductive Links (p : Pack) : Nat → List Elem → Nat → Prop
  | nil (off : Nat) : Links p off [] off
  | snoc {off type size curpos base pos' es root} : unpackHeader p off = .ok (type, size, curpos) → isDelta type = true →
      getDeltaBase p curpos type off = .ok (base, pos') → Links p base es root →
      Links p off (es ++ [⟨off, pos', size, type⟩]) root

theorem chain_ok (p : Pack) (caches : Nat → Cache) : ∀ (fuel k off : Nat) (stack out : List Elem) (c : Option Raw),
    chain p caches fuel k off stack = some (.ok (out, c)) →
    ∃ es root, Links p off es root ∧
      ((∃ k raw, caches k root = some raw ∧ c = some raw ∧ out = es ++ stack) ∨
       (∃ type size curpos, unpackHeader p root = .ok (type, size, curpos) ∧ isDelta type = false ∧ c = none ∧
          out = ⟨root, curpos, size, type⟩ :: (es ++ stack))) := by
  intro fuel
  induction fuel with
  | zero => intro k off stack out c h; cases h
  | succ fuel ih =>
    intro k off stack out c h
    unfold chain at h
    cases hc : caches k off with
    | some raw =>
      rw [hc] at h
      cases h
      exact ⟨[], off, .nil off, .inl ⟨k, raw, hc, rfl, rfl⟩⟩
    | none =>
      rw [hc] at h
      simp only [] at h
      cases hu : unpackHeader p off with
      | err e => rw [hu] at h; cases h
      | ub => rw [hu] at h; cases h
      | ok x =>
        obtain ⟨type, size, curpos⟩ := x
        rw [hu] at h
        simp only [] at h
        by_cases hd : isDelta type = true
        · rw [if_neg (by simp [hd])] at h
          cases hg : getDeltaBase p curpos type off with
          | err e => rw [hg] at h; cases h
          | ub => rw [hg] at h; cases h
          | ok y =>
            obtain ⟨base, pos'⟩ := y
            rw [hg] at h
            obtain ⟨es, root, hl, hr⟩ := ih _ _ _ _ _ h
            refine ⟨es ++ [⟨off, pos', size, type⟩], root, .snoc hu hd hg hl, ?_⟩
            simpa [List.append_assoc] using hr
        · rw [if_pos (by simpa using hd)] at h
          cases h
          exact ⟨[], off, .nil off, .inr ⟨type, size, curpos, hu, by simpa using hd, rfl, rfl⟩⟩

/-- the key with which the next object would be cached -/
def lastKey : List Elem → Option Nat → Option Nat
  | [], key => key
  | e :: es, _ => lastKey es (some e.baseKey)

theorem applyLoop_append (p : Pack) (t : Nat) (es fs : List Elem) : ∀ (key : Option Nat) (d : Bytes) (adds : List (Nat × Raw)),
    applyLoop p t (es ++ fs) key d adds = applyLoop p t es key d adds >>= fun x => applyLoop p t fs (lastKey es key) x.1 x.2 := by
  induction es with
  | nil => intros; rfl
  | cons e es ih =>
    intro key d adds
    simp only [List.cons_append, applyLoop, lastKey]
    cases unpackCompressed p e.offset e.size with
    | err e => rfl
    | ub => rfl
    | ok delta =>
      simp only [Res.bind_ok]
      cases Delta.apply d delta with
      | err e => rfl
      | ub => rfl
      | ok out => simp only [Res.bind_ok]; exact ih _ _ _

theorem makes_iff (base delta out : Bytes) : Delta.apply base delta = .ok out ↔ Makes base delta out := by
  rw [Delta.C06_exact]
  constructor
  · rintro ⟨h1, h2, ops, is, a, ⟨m, b⟩, ⟨m', b'⟩, c⟩
    exact ⟨h1, h2, ops, is, a, ⟨m, b⟩, ⟨m', b'⟩, c⟩
  · rintro ⟨h1, h2, ops, is, a, ⟨m, b⟩, ⟨m', b'⟩, c⟩
    exact ⟨h1, h2, ops, is, a, ⟨m, b⟩, ⟨m', b'⟩, c⟩

theorem links_lastKey {p : Pack} {off root : Nat} {es : List Elem} (h : Links p off es root) (key : Option Nat)
    (hk : key = none ∨ key = some root) : lastKey es key = none ∨ lastKey es key = some off := by
  cases h with
  | nil => exact hk
  | snoc h1 h2 h3 h4 =>
    right
    rename_i es' _
    have : ∀ (l : List Elem) (key : Option Nat) (e : Elem), lastKey (l ++ [e]) key = some e.baseKey := by
      intro l
      induction l with
      | nil => intros; rfl
      | cons a l ih => intros; exact ih _ _
    exact this _ _ _

def AddsOk (p : Pack) (adds : List (Nat × Raw)) : Prop := ∀ x ∈ adds, (src p).Entry x.1 x.2.1 x.2.2

theorem snoc_step (p : Pack) (hw : WinOk p) {off type size curpos base pos' t : Nat} {d delta out : Bytes}
    (hu : unpackHeader p off = .ok (type, size, curpos)) (hg : getDeltaBase p curpos type off = .ok (base, pos'))
    (he : (src p).Entry base t d) (hc : unpackCompressed p pos' size = .ok delta) (ha : Delta.apply d delta = .ok out) :
    (src p).Entry off t out := by
  have hlt := header_lt p off _ _ _ hw hu
  obtain ⟨h, rest, n, h1, h2, h3, h4, rfl⟩ := (unpackHeader_ok p hw _ _ _ _).mp hu
  have hb := (getDeltaBase_ok p hw off _ _ _ _ (by have := hw.1; omega)).mp hg
  exact .delta h1 h2 h3 h4 hb he ((unpackCompressed_ok _ _ _ _).mp hc) ((makes_iff _ _ _).mp ha)

theorem applyLoop_links (p : Pack) (hw : WinOk p) {off root : Nat} {es : List Elem} (hl : Links p off es root) :
    ∀ (t : Nat) (d out : Bytes) (key : Option Nat) (adds adds' : List (Nat × Raw)), (src p).Entry root t d →
      (key = none ∨ key = some root) → AddsOk p adds → applyLoop p t es key d adds = .ok (out, adds') →
      (src p).Entry off t out ∧ AddsOk p adds' := by
  induction hl with
  | nil off =>
    intro t d out key adds adds' he hk ha h
    cases h
    exact ⟨he, ha⟩
  | snoc hu hd hg hl ih =>
    intro t d out key adds adds' he hk ha h
    rw [applyLoop_append] at h
    rename_i es root
    cases h1 : applyLoop p t es key d adds with
    | err e => rw [h1] at h; cases h
    | ub => rw [h1] at h; cases h
    | ok x =>
      obtain ⟨d1, adds1⟩ := x
      rw [h1] at h
      obtain ⟨he1, ha1⟩ := ih t d d1 key adds adds1 he hk ha h1
      simp only [Res.bind_ok, applyLoop] at h
      have hadds : ∀ x, x = (match lastKey es key with | some k => (k, (t, d1)) :: adds1 | none => adds1) → AddsOk p x := by
        intro x hx
        rcases links_lastKey hl key hk with e | e
        · rw [e] at hx; subst hx; exact ha1
        · rw [e] at hx; subst hx
          intro y hy
          rcases List.mem_cons.mp hy with rfl | hy
          · exact he1
          · exact ha1 y hy
      cases hc : unpackCompressed p _ _ with
      | err e => rw [hc] at h; cases h
      | ub => rw [hc] at h; cases h
      | ok delta =>
        rw [hc] at h
        simp only [Res.bind_ok] at h
        cases hap : Delta.apply d1 delta with
        | err e => rw [hap] at h; cases h
        | ub => rw [hap] at h; cases h
        | ok out' =>
          rw [hap] at h
          cases h
          exact ⟨snoc_step p hw hu hg he1 hc hap, hadds _ rfl⟩

end Verif.Pack
