import Verif.Pkt.Model
import Verif.Pkt.Spec
import Verif.Strtol.Props
import Verif.Oid.Props
namespace Verif.Pkt
open Verif.Pkt.Spec Verif.Oid.Spec

theorem prefixEq_iff (s p : Bytes) : Loose.prefixEq s p = true ↔ p <+: s := by
  induction s generalizing p with
  | nil => cases p <;> simp [Loose.prefixEq]
  | cons c s ih =>
    cases p with
    | nil => simp [Loose.prefixEq]
    | cons q p =>
      rw [Loose.prefixEq]
      by_cases h : c = q
      · subst h; rw [if_neg (by simp), ih, List.cons_prefix_cons]; simp
      · rw [if_pos h]; simp [List.cons_prefix_cons, Ne.symm h]

theorem strncmpEq_iff (m p : Bytes) (h : p.length ≤ m.length) : strncmpEq m p = .ok (decide (p <+: m)) := by
  induction p generalizing m with
  | nil => simp [strncmpEq]
  | cons q p ih =>
    cases m with
    | nil => simp at h
    | cons c m =>
      rw [strncmpEq]
      by_cases e : c = q
      · subst e; rw [if_neg (by simp), ih m (by simpa using h)]; simp [List.cons_prefix_cons]
      · rw [if_pos e]; simp [List.cons_prefix_cons, Ne.symm e]

theorem mapM_length {t : Bytes} {vs : List UInt8} (h : t.mapM hexVal = some vs) : vs.length = t.length := by
  induction t generalizing vs with
  | nil => simp at h; subst h; rfl
  | cons c t ih =>
    rw [List.mapM_cons] at h
    cases hc : hexVal c with
    | none => simp [hc] at h
    | some v =>
      cases ht : t.mapM hexVal with
      | none => simp [hc, ht] at h
      | some ws => simp [hc, ht] at h; subst h; simp [ih ht]

theorem oidText_length {t id : Bytes} (h : OidText t id) : t.length = 40 := by
  have := mapM_length h.2
  rw [Oid.length_nibbles, h.1] at this
  omega

theorem oidText_inj {t id id' : Bytes} (h : OidText t id) (h' : OidText t id') : id = id' := by
  have := h.2.symm.trans h'.2
  exact Oid.nibbles_inj (by simpa using this)

theorem readOid_iff (line : Bytes) (hl : 40 ≤ line.length) (id : Bytes) :
    readOid line = .ok id ↔ OidText (line.take 40) id := by
  obtain ⟨h1, _, _⟩ := Oid.C02_from_prefix 20 line 40 hl
  unfold readOid
  rw [h1]
  constructor
  · rintro ⟨_, _, vs, e, f⟩
    simp at f
    have := mapM_length e
    have g := congrArg List.length f
    rw [Oid.length_nibbles, this] at g
    simp at g
    exact ⟨by omega, by rw [e, f]⟩
  · rintro ⟨hid, e⟩
    exact ⟨by decide, by decide, _, e, by simp⟩

theorem readOid_cases (line : Bytes) (hl : 40 ≤ line.length) :
    (∃ id, readOid line = .ok id ∧ OidText (line.take 40) id) ∨
    (readOid line = .err (-1) ∧ (line.take 40).mapM hexVal = none) := by
  obtain ⟨h1, h2, h3⟩ := Oid.C02_from_prefix 20 line 40 hl
  cases e : readOid line with
  | ok id => exact .inl ⟨id, rfl, (readOid_iff line hl id).mp e⟩
  | ub => exact absurd e h3
  | err x =>
    right
    rw [h2 x e]
    refine ⟨rfl, ?_⟩
    cases hm : (line.take 40).mapM hexVal with
    | none => rfl
    | some vs =>
      exfalso
      have hlen := mapM_length hm
      have : ∃ id, readOid line = .ok id := by
        -- the loop succeeds on digits
        unfold readOid Oid.fromPrefix
        rw [if_neg (by decide), if_neg (by decide)]
        obtain ⟨id, hid, _⟩ := Oid.prefixLoop_spec 40 0 (List.replicate 20 0) line [] vs 0 (by
          rw [Oid.nibbles_replicate]; rfl) rfl hl hm
        exact ⟨id, hid⟩
      obtain ⟨id, hid⟩ := this
      rw [hid] at e; cases e

theorem lenientLoop_ok (n p : Nat) (id s r : Bytes) (h : Oid.prefixLoop n p id s = .ok r) : lenientLoop n p id s = r := by
  induction n generalizing p id s with
  | zero => rw [Oid.prefixLoop] at h; cases h; rfl
  | succ n ih =>
    cases s with
    | nil => rw [Oid.prefixLoop] at h; cases h
    | cons c s =>
      rw [Oid.prefixLoop] at h
      rw [lenientLoop]
      split
      · rw [if_pos (by assumption)] at h; cases h
      · rw [if_neg (by assumption)] at h; exact ih _ _ _ h

theorem lenient_oid {t id : Bytes} (h : OidText t id) : lenientLoop 40 0 (List.replicate 20 0) t = id := by
  have hl := oidText_length h
  have := (readOid_iff t (by omega) id).mpr (by rw [List.take_of_length_le (by omega)]; exact h)
  exact lenientLoop_ok _ _ _ _ _ this

/-! ### the length -/

theorem isxdigit_iff : ∀ c : UInt8, isxdigit c = (hexVal c).isSome := by decide +kernel
theorem digitVal_hex : ∀ c : UInt8, isxdigit c = true → Strtol.digitVal c = (hexVal c).map (·.toNat) := by decide +kernel
theorem xdigit_facts : ∀ c : UInt8, isxdigit c = true → Strtol.isSpace c = false ∧ c ≠ 0x2d ∧ c ≠ 0x2b ∧ c ≠ 0x78 ∧ c ≠ 0x58 := by
  decide +kernel

theorem accStep_small (a v : Nat) (nd : Nat) (ha : a < 65536) (hv : v < 16) :
    Strtol.accStep 16 false ⟨a, false, nd⟩ v = ⟨((a * 16 + v : Nat) : Int), false, nd + 1⟩ := by
  unfold Strtol.accStep
  have f1 : Strtol.fits64 ((a : Int) * ((16 : Nat) : Int)) = true := by simp [Strtol.fits64]; omega
  have w1 : Strtol.wrap64 ((a : Int) * ((16 : Nat) : Int)) = (a : Int) * 16 := by simp only [Strtol.wrap64]; omega
  have f2 : Strtol.fits64 ((a : Int) * 16 + (v : Int)) = true := by simp [Strtol.fits64]; omega
  dsimp only
  rw [f1, w1]
  simp [f2]

theorem digitLoop_cons (a nd : Nat) (c : UInt8) (v : UInt8) (cs : Bytes) (hc : hexVal c = some v) (ha : a < 65536) :
    Strtol.digitLoop 16 false ⟨a, false, nd⟩ (c :: cs) = Strtol.digitLoop 16 false ⟨((a * 16 + v.toNat : Nat) : Int), false, nd + 1⟩ cs := by
  have hx : isxdigit c = true := by rw [isxdigit_iff, hc]; rfl
  have hv := Oid.hexVal_lt c v hc
  have hv' : v.toNat < 16 := by simpa [UInt8.lt_iff_toNat_lt] using hv
  rw [Strtol.digitLoop, digitVal_hex c hx, hc]
  simp only [Option.map_some]
  rw [if_neg (by omega), accStep_small a v.toNat nd ha hv']

theorem strntol_hex4 (c1 c2 c3 c4 v1 v2 v3 v4 : UInt8) (h1 : hexVal c1 = some v1) (h2 : hexVal c2 = some v2)
    (h3 : hexVal c3 = some v3) (h4 : hexVal c4 = some v4) :
    Strtol.strntol32 [c1, c2, c3, c4] 16 =
      .ok ((((((v1.toNat * 16 + v2.toNat) * 16 + v3.toNat) * 16 + v4.toNat : Nat)) : Int), []) := by
  have x1 := xdigit_facts c1 (by rw [isxdigit_iff, h1]; rfl)
  have x2 := xdigit_facts c2 (by rw [isxdigit_iff, h2]; rfl)
  have l : ∀ c v, hexVal c = some v → v.toNat < 16 := fun c v h => by
    simpa [UInt8.lt_iff_toNat_lt] using Oid.hexVal_lt c v h
  have b1 := l _ _ h1
  have b2 := l _ _ h2
  have b3 := l _ _ h3
  have b4 := l _ _ h4
  have hs : Strtol.skipPrefix 16 [c1, c2, c3, c4] = [c1, c2, c3, c4] := by
    unfold Strtol.skipPrefix
    split
    · rename_i x rest e
      cases e
      rw [if_neg]
      rintro ⟨_, _, h | h⟩
      · exact x2.2.2.2.1 h
      · exact x2.2.2.2.2 h
    · rfl
  have e64 : Strtol.strntol64 [c1, c2, c3, c4] 16 =
      .ok ((((((v1.toNat * 16 + v2.toNat) * 16 + v3.toNat) * 16 + v4.toNat : Nat)) : Int), []) := by
    unfold Strtol.strntol64
    have hd : List.dropWhile Strtol.isSpace [c1, c2, c3, c4] = [c1, c2, c3, c4] := by
      simp [List.dropWhile_cons, x1.1]
    rw [hd]
    dsimp only
    have hp : (if c1 = 0x2d ∨ c1 = 0x2b then [c2, c3, c4] else [c1, c2, c3, c4]) = [c1, c2, c3, c4] := by
      simp [x1.2.1, x1.2.2.1]
    rw [hp, if_neg (by simp), show decide (c1 = 45) = false by simp [x1.2.1]]
    have : Strtol.detectBase 16 [c1, c2, c3, c4] = 16 := rfl
    rw [this, if_neg (by decide), hs]
    have d := digitLoop_cons 0 0 c1 v1 [c2, c3, c4] h1 (by omega)
    have d2 := digitLoop_cons (0 * 16 + v1.toNat) 1 c2 v2 [c3, c4] h2 (by omega)
    have d3 := digitLoop_cons ((0 * 16 + v1.toNat) * 16 + v2.toNat) 2 c3 v3 [c4] h3 (by omega)
    have d4 := digitLoop_cons (((0 * 16 + v1.toNat) * 16 + v2.toNat) * 16 + v3.toNat) 3 c4 v4 [] h4 (by omega)
    have dd := d.trans (d2.trans (d3.trans d4))
    rw [Strtol.digitLoop.eq_1] at dd
    rw [Nat.zero_mul, Nat.zero_add] at dd
    rw [show (⟨0, false, 0⟩ : Strtol.Acc) = ⟨((0 : Nat) : Int), false, 0⟩ from rfl]
    rw [dd]
    simp
  unfold Strtol.strntol32
  rw [e64]
  dsimp only
  rw [if_neg]
  omega

theorem mapM_some_cons {c : UInt8} {t : Bytes} {vs : List UInt8} (h : (c :: t).mapM hexVal = some vs) :
    ∃ v ws, hexVal c = some v ∧ t.mapM hexVal = some ws ∧ vs = v :: ws := by
  rw [List.mapM_cons] at h
  cases hc : hexVal c with
  | none => simp [hc] at h
  | some v =>
    cases ht : t.mapM hexVal with
    | none => simp [hc, ht] at h
    | some ws => simp [hc, ht] at h; exact ⟨v, ws, rfl, rfl, h.symm⟩

theorem take4 (line : Bytes) (h : ¬ line.length < 4) : ∃ a b c d, line.take 4 = [a, b, c, d] := by
  match line, h with
  | a :: b :: c :: d :: r, _ => exact ⟨a, b, c, d, rfl⟩
  | [], h => simp at h
  | [_], h => simp at h
  | [_, _], h => simp at h
  | [_, _, _], h => simp at h

theorem parseLen_iff (line : Bytes) (n : Nat) : parseLen line = .ok n ↔ Len (line.take 4) n := by
  unfold parseLen
  by_cases h : line.length < 4
  · rw [if_pos h]
    constructor
    · intro h; cases h
    · rintro ⟨a, b, c, d, e, _⟩
      have := mapM_length e
      simp at this; omega
  · rw [if_neg h]
    obtain ⟨a, b, c, d, e⟩ := take4 line h
    rw [e]
    dsimp only
    by_cases hx : ([a, b, c, d].all isxdigit) = true
    · rw [hx, if_neg (by simp)]
      simp only [List.all_cons, isxdigit_iff, Bool.and_eq_true, Option.isSome_iff_exists, List.all_nil, and_true] at hx
      obtain ⟨⟨v1, h1⟩, ⟨v2, h2⟩, ⟨v3, h3⟩, ⟨v4, h4⟩⟩ := hx
      rw [strntol_hex4 a b c d v1 v2 v3 v4 h1 h2 h3 h4]
      dsimp only
      rw [if_neg (by omega)]
      constructor
      · intro e
        injection e with e
        exact ⟨v1, v2, v3, v4, by simp [List.mapM_cons, h1, h2, h3, h4], by omega⟩
      · rintro ⟨w1, w2, w3, w4, e, rfl⟩
        simp [List.mapM_cons, h1, h2, h3, h4] at e
        obtain ⟨rfl, rfl, rfl, rfl⟩ := e
        congr 1
    · rw [if_pos (by rw [Bool.not_eq_true] at hx; rw [hx]; rfl)]
      constructor
      · intro h; cases h
      · rintro ⟨v1, v2, v3, v4, e, _⟩
        obtain ⟨_, _, h1, e, _⟩ := mapM_some_cons e
        obtain ⟨_, _, h2, e, _⟩ := mapM_some_cons e
        obtain ⟨_, _, h3, e, _⟩ := mapM_some_cons e
        obtain ⟨_, _, h4, e, _⟩ := mapM_some_cons e
        exact absurd (by simp [isxdigit_iff, h1, h2, h3, h4]) hx

theorem parseLen_cases (line : Bytes) :
    (line.length < 4 ∧ parseLen line = .err EBUFS) ∨
    (4 ≤ line.length ∧ (∃ n, Len (line.take 4) n ∧ parseLen line = .ok n)) ∨
    (4 ≤ line.length ∧ (∀ n, ¬ Len (line.take 4) n) ∧ parseLen line = .err (-1)) := by
  by_cases h : line.length < 4
  · left; exact ⟨h, by unfold parseLen; rw [if_pos h]⟩
  right
  cases e : parseLen line with
  | ok n => left; exact ⟨by omega, n, (parseLen_iff line n).mp e, rfl⟩
  | ub =>
    exfalso
    unfold parseLen at e
    rw [if_neg h] at e
    obtain ⟨a, b, c, d, e4⟩ := take4 line h
    rw [e4] at e
    dsimp only at e
    by_cases hx : ([a, b, c, d].all isxdigit) = true
    · rw [hx, if_neg (by simp)] at e
      simp only [List.all_cons, isxdigit_iff, Bool.and_eq_true, Option.isSome_iff_exists, List.all_nil, and_true] at hx
      obtain ⟨⟨v1, h1⟩, ⟨v2, h2⟩, ⟨v3, h3⟩, ⟨v4, h4⟩⟩ := hx
      rw [strntol_hex4 a b c d v1 v2 v3 v4 h1 h2 h3 h4] at e
      dsimp only at e
      rw [if_neg (by omega)] at e; cases e
    · rw [if_pos (by rw [Bool.not_eq_true] at hx; rw [hx]; rfl)] at e; cases e
  | err x =>
    right
    refine ⟨by omega, fun n hn => ?_, ?_⟩
    · rw [(parseLen_iff line n).mpr hn] at e; cases e
    · unfold parseLen at e
      rw [if_neg h] at e
      obtain ⟨a, b, c, d, e4⟩ := take4 line h
      rw [e4] at e
      dsimp only at e
      by_cases hx : ([a, b, c, d].all isxdigit) = true
      · rw [hx, if_neg (by simp)] at e
        simp only [List.all_cons, isxdigit_iff, Bool.and_eq_true, Option.isSome_iff_exists, List.all_nil, and_true] at hx
        obtain ⟨⟨v1, h1⟩, ⟨v2, h2⟩, ⟨v3, h3⟩, ⟨v4, h4⟩⟩ := hx
        rw [strntol_hex4 a b c d v1 v2 v3 v4 h1 h2 h3 h4] at e
        dsimp only at e
        rw [if_neg (by omega)] at e; cases e
      · rw [if_pos (by rw [Bool.not_eq_true] at hx; rw [hx]; rfl)] at e; cases e; rfl

theorem len_lt {ds : Bytes} {n : Nat} (h : Len ds n) : n < 65536 := by
  obtain ⟨a, b, c, d, e, rfl⟩ := h
  have hl := mapM_length e
  match ds, hl with
  | [c1, c2, c3, c4], _ =>
    obtain ⟨_, _, h1, e, q⟩ := mapM_some_cons e; cases q
    obtain ⟨_, _, h2, e, q⟩ := mapM_some_cons e; cases q
    obtain ⟨_, _, h3, e, q⟩ := mapM_some_cons e; cases q
    obtain ⟨_, _, h4, e, q⟩ := mapM_some_cons e; cases q
    have l : ∀ c v, hexVal c = some v → v.toNat < 16 := fun c v h => by
      simpa [UInt8.lt_iff_toNat_lt] using Oid.hexVal_lt c v h
    have b1 := l _ _ h1
    have b2 := l _ _ h2
    have b3 := l _ _ h3
    have b4 := l _ _ h4
    omega

theorem len_inj {ds : Bytes} {n m : Nat} (h : Len ds n) (h' : Len ds m) : n = m := by
  obtain ⟨a, b, c, d, e, rfl⟩ := h
  obtain ⟨a', b', c', d', e', rfl⟩ := h'
  rw [e] at e'
  cases e'
  rfl

theorem len_length {ds : Bytes} {n : Nat} (h : Len ds n) : ds.length = 4 := by
  obtain ⟨a, b, c, d, e, rfl⟩ := h
  have := mapM_length e
  simpa using this.symm

end Verif.Pkt
