import Verif.Oid.Model
import Verif.Oid.Spec
namespace Verif.Oid
open Spec

theorem fromhex_eq : ∀ c : UInt8, fromhex c = match hexVal c with | some v => (v.toNat : Int) | none => -1 := by
  decide +kernel
theorem hexVal_lt : ∀ c : UInt8, ∀ v, hexVal c = some v → v < 16 := by
  have h : ∀ c : UInt8, (hexVal c).all (· < 16) = true := by decide +kernel
  intro c v hc
  have := h c
  rw [hc] at this
  simpa using this
theorem hexDigit_hi : ∀ b : UInt8, hexDigit (b >>> 4) = digit (b / 16) := by decide +kernel
theorem hexDigit_lo : ∀ b : UInt8, hexDigit (b &&& 0x0f) = digit (b % 16) := by decide +kernel
theorem hexVal_digit : ∀ n : UInt8, n < 16 → hexVal (digit n) = some n := by decide +kernel
theorem hexVal_upper : ∀ c : UInt8, hexVal (upper c) = hexVal c := by decide +kernel
theorem div16_lt : ∀ b : UInt8, b / 16 < 16 := by decide +kernel
theorem mod16_lt : ∀ b : UInt8, b % 16 < 16 := by decide +kernel
theorem byte_ext : ∀ a b : UInt8, a / 16 = b / 16 → a % 16 = b % 16 → a = b := by
  intro a b h1 h2
  have h1 := UInt8.toNat_inj.mpr h1
  have h2 := UInt8.toNat_inj.mpr h2
  simp at h1 h2
  apply UInt8.toNat_inj.mp; omega
theorem and_f0 : ∀ a : UInt8, (a &&& 0xf0) = a / 16 * 16 ∧ (a &&& 0xf0) / 16 = a / 16 := by decide +kernel
theorem xor_f0 (a b : UInt8) : ((a ^^^ b) &&& 0xf0 = 0) ↔ a / 16 = b / 16 := by
  have : (a ^^^ b) &&& 0xf0 = (a &&& 0xf0) ^^^ (b &&& 0xf0) := by
    apply UInt8.eq_of_toBitVec_eq
    simp only [UInt8.toBitVec_and, UInt8.toBitVec_xor]
    ext i hi
    simp only [BitVec.getElem_and, BitVec.getElem_xor, Bool.and_xor_distrib_right]
  rw [this, UInt8.xor_eq_zero_iff]
  constructor
  · intro h
    rw [← (and_f0 a).2, ← (and_f0 b).2, h]
  · intro h
    rw [(and_f0 a).1, (and_f0 b).1, h]

@[simp] theorem length_nibbles (id : Bytes) : (nibbles id).length = 2 * id.length := by
  induction id with
  | nil => rfl
  | cons b bs ih => simp [nibbles, ih]; omega

@[simp] theorem length_hex (id : Bytes) : (hex id).length = 2 * id.length := by simp [hex]

theorem nibbles_inj {a b : Bytes} (h : nibbles a = nibbles b) : a = b := by
  induction a generalizing b with
  | nil => cases b <;> simp_all [nibbles]
  | cons x xs ih =>
    cases b with
    | nil => simp [nibbles] at h
    | cons y ys =>
      simp only [nibbles, List.cons.injEq] at h
      rw [byte_ext x y h.1 h.2.1, ih h.2.2]

theorem nibbles_lt (id : Bytes) : ∀ n ∈ nibbles id, n < 16 := by
  induction id with
  | nil => simp [nibbles]
  | cons b bs ih =>
    intro n hn
    simp only [nibbles, List.mem_cons] at hn
    rcases hn with h | h | h
    · rw [h]; exact div16_lt b
    · rw [h]; exact mod16_lt b
    · exact ih n h

theorem nibbles_replicate (n : Nat) : nibbles (List.replicate n 0) = List.replicate (2 * n) 0 := by
  induction n with
  | zero => rfl
  | succ n ih => rw [List.replicate_succ, nibbles, ih, show 2 * (n+1) = 2 * n + 1 + 1 by omega]; rfl

theorem forall_lt16 {p : UInt8 → Prop} (h : ∀ n : Fin 16, p (UInt8.ofNat n.val)) : ∀ c : UInt8, c < 16 → p c := by
  intro c hc
  have := h ⟨c.toNat, by simpa [UInt8.lt_iff_toNat_lt] using hc⟩
  simpa using this
theorem or_hi16 : ∀ b : UInt8, b < 16 → ∀ v : UInt8, v < 16 →
    (b ||| v <<< 4) / 16 = v ∧ (b ||| v <<< 4) % 16 = b % 16 :=
  forall_lt16 fun b => forall_lt16 (by revert b; decide +kernel)
theorem or_hi (b v : UInt8) (h : b / 16 = 0) (hv : v < 16) :
    (b ||| v <<< 4) / 16 = v ∧ (b ||| v <<< 4) % 16 = b % 16 := by
  refine or_hi16 b ?_ v hv
  have h := UInt8.toNat_inj.mpr h
  rw [UInt8.lt_iff_toNat_lt]
  simp at h ⊢; omega
theorem or_lo (b v : UInt8) (h : b % 16 = 0) (hv : v < 16) :
    (b ||| v <<< 0) % 16 = v ∧ (b ||| v <<< 0) / 16 = b / 16 := by
  have hb : b = (b / 16) * 16 := by
    have h := UInt8.toNat_inj.mpr h
    have hb := b.toNat_lt
    apply UInt8.toNat_inj.mp
    simp at h ⊢; omega
  have key : ∀ c : UInt8, c < 16 → ∀ v : UInt8, v < 16 →
      ((c * 16 : UInt8) ||| v <<< 0) % 16 = v ∧ ((c * 16 : UInt8) ||| v <<< 0) / 16 = c :=
    forall_lt16 fun b => forall_lt16 (by revert b; decide +kernel)
  have := key (b / 16) (div16_lt b) v hv
  rwa [← hb] at this

theorem nibbles_orNibble (id : Bytes) (p : Nat) (v : UInt8) (hv : v < 16) (h0 : (nibbles id)[p]? = some 0) :
    nibbles (orNibble id p v) = (nibbles id).set p v := by
  induction id generalizing p with
  | nil => simp [nibbles] at h0
  | cons b bs ih =>
    match p with
    | 0 =>
      simp only [nibbles, List.getElem?_cons_zero, Option.some.injEq] at h0
      have := or_hi b v h0 hv
      simp [orNibble, List.modify, nibbles, this]
    | 1 =>
      simp only [nibbles, List.getElem?_cons_succ, List.getElem?_cons_zero, Option.some.injEq] at h0
      have := or_lo b v h0 hv
      simp only [UInt8.shiftLeft_zero] at this
      simp [orNibble, List.modify, nibbles, this]
    | p + 2 =>
      simp only [nibbles, List.getElem?_cons_succ] at h0
      have := ih p h0
      have e : orNibble (b :: bs) (p + 2) v = b :: orNibble bs p v := by
        simp [orNibble, Nat.add_mod_right]
      rw [e]
      simp [nibbles, this]

/-- the whole effect of the parsing loop -/
theorem prefixLoop_spec (n p : Nat) (id s : Bytes) (done vs : List UInt8) (k : Nat)
    (hid : nibbles id = done ++ List.replicate (n + k) 0) (hp : done.length = p) (hn : n ≤ s.length)
    (hvs : (s.take n).mapM hexVal = some vs) :
    ∃ r, prefixLoop n p id s = .ok r ∧ nibbles r = done ++ vs ++ List.replicate k 0 := by
  induction n generalizing p id s done vs with
  | zero =>
    have hid' : nibbles id = done ++ List.replicate k 0 := by simpa using hid
    simp only [List.take_zero, List.mapM_nil] at hvs
    cases hvs
    exact ⟨id, rfl, by simpa using hid'⟩
  | succ n ih =>
    cases s with
    | nil => simp at hn
    | cons c s =>
      rw [prefixLoop]
      simp only [List.take_succ_cons, List.mapM_cons] at hvs
      cases hc : hexVal c with
      | none => simp [hc] at hvs
      | some v =>
        have hv := hexVal_lt c v hc
        have h0 : (nibbles id)[p]? = some 0 := by
          rw [hid, List.getElem?_append_right (by omega)]
          rw [hp, Nat.sub_self, List.getElem?_replicate, if_pos (by omega)]
        have hset := nibbles_orNibble id p v hv h0
        have hnew : nibbles (orNibble id p v) = (done ++ [v]) ++ List.replicate (n + k) 0 := by
          rw [hset, hid, List.set_append_right _ _ (by omega)]
          rw [show n + 1 + k = (n + k) + 1 by omega, List.replicate_succ]
          simp [hp]
        have hvz : ¬ ((v.toNat : Int) < 0) := by omega
        cases hm : List.mapM hexVal (s.take n) with
        | none => simp [hc, hm] at hvs
        | some ws =>
          simp [hc, hm] at hvs
          obtain ⟨r, h3, h4⟩ := ih (p + 1) (orNibble id p v) s (done ++ [v]) ws hnew (by simp [hp]) (by simpa using hn) hm
          refine ⟨r, ?_, by rw [h4, ← hvs]; simp⟩
          simp only [fromhex_eq, hc, if_neg hvz, Int.toNat_natCast, UInt8.ofNat_toNat]
          exact h3

theorem prefixLoop_err (n p : Nat) (id s : Bytes) (hn : n ≤ s.length)
    (hm : (s.take n).mapM hexVal = none) : prefixLoop n p id s = .err (-1) := by
  induction n generalizing p id s with
  | zero => simp at hm
  | succ n ih =>
    cases s with
    | nil => simp at hn
    | cons c s =>
      rw [prefixLoop]
      simp only [fromhex_eq]
      simp only [List.take_succ_cons, List.mapM_cons] at hm
      cases hc : hexVal c with
      | none => simp
      | some v =>
        have hvz : ¬ ((v.toNat : Int) < 0) := by omega
        simp only [if_neg hvz]
        apply ih
        · simpa using hn
        · simp only [hc] at hm
          cases hm' : List.mapM hexVal (s.take n) with
          | none => rfl
          | some vs => simp [hm'] at hm

theorem fmtLoop_spec (id : Bytes) (n i : Nat) (h : i + n ≤ id.length) :
    fmtLoop id n i = .ok (((hex id).drop (2 * i)).take (2 * n)) := by
  induction n generalizing i with
  | zero => simp [fmtLoop]
  | succ n ih =>
    rw [fmtLoop]
    have hi : i < id.length := by omega
    simp only [List.getElem?_eq_getElem hi]
    rw [ih (i + 1) (by omega)]
    simp only [Res.bind_ok, hexDigit_hi, hexDigit_lo, Res.ok.injEq]
    have : (hex id).drop (2 * i) = digit (id[i] / 16) :: digit (id[i] % 16) :: (hex id).drop (2 * (i + 1)) := by
      clear ih h
      induction id generalizing i with
      | nil => simp at hi
      | cons b bs ihb =>
        cases i with
        | zero => simp [hex, nibbles]
        | succ i =>
          have := ihb i (by simpa using hi)
          simp only [hex, nibbles, List.map_cons, List.getElem_cons_succ] at this ⊢
          rw [show 2 * (i + 1) = 2 * i + 2 by omega, show 2 * (i + 1 + 1) = 2 * i + 2 + 2 by omega]
          simp only [List.drop_succ_cons]
          rw [this]
          rfl
    rw [this, show 2 * (n + 1) = 2 * n + 1 + 1 by omega, List.take_succ_cons, List.take_succ_cons]

theorem hex_get_hi (id : Bytes) (i : Nat) (h : i < id.length) : (hex id)[2 * i]? = some (digit (id[i] / 16)) := by
  induction id generalizing i with
  | nil => simp at h
  | cons b bs ih =>
    cases i with
    | zero => simp [hex, nibbles]
    | succ i => simpa [hex, nibbles, show 2 * (i+1) = 2 * i + 2 by omega] using ih i (by simpa using h)

theorem hex_get_lo (id : Bytes) (i : Nat) (h : i < id.length) : (hex id)[2 * i + 1]? = some (digit (id[i] % 16)) := by
  induction id generalizing i with
  | nil => simp at h
  | cons b bs ih =>
    cases i with
    | zero => simp [hex, nibbles]
    | succ i => simpa [hex, nibbles, show 2 * (i+1) + 1 = 2 * i + 1 + 2 by omega] using ih i (by simpa using h)

theorem take_snoc {α} (l : List α) (n : Nat) (x : α) (h : l[n]? = some x) : l.take (n + 1) = l.take n ++ [x] := by
  rw [List.take_add_one, h]; rfl

/-- `git_oid_fmt_substr` writes exactly the requested slice of the hex text -/
theorem fmtSubstr_spec (id : Bytes) (start count : Nat) (h : start + count ≤ 2 * id.length)
    (hc : start % 2 = 0 ∨ 0 < count) :
    fmtSubstr id start count = .ok (((hex id).drop start).take count) := by
  unfold fmtSubstr
  simp only
  by_cases hs : start % 2 = 1
  · have hcount : 0 < count := by omega
    have hlt : start / 2 < id.length := by omega
    simp only [hs, if_true, List.getElem?_eq_getElem hlt, Res.bind_ok]
    rw [fmtLoop_spec id _ _ (by omega)]
    simp only [Res.bind_ok]
    have hfirst : (hex id)[start]? = some (digit (id[start/2] % 16)) := by
      have := hex_get_lo id (start/2) hlt
      rwa [show 2 * (start / 2) + 1 = start by omega] at this
    have hdrop : (hex id).drop start = digit (id[start/2] % 16) :: (hex id).drop (start + 1) := by
      rw [List.drop_eq_getElem?_toList_append, hfirst]; rfl
    rw [hdrop, hexDigit_lo]
    have e1 : 2 * (start / 2 + 1) = start + 1 := by omega
    rw [e1]
    by_cases he : (start + count) % 2 = 1
    · have hlt2 : (start + count) / 2 < id.length := by omega
      have hi : (if start / 2 + 1 < (start + count) / 2 then (start + count) / 2 else start / 2 + 1)
          = (start + count) / 2 := by split <;> omega
      simp only [he, if_true, hi, List.getElem?_eq_getElem hlt2, Res.bind_ok]
      congr 1
      obtain ⟨c', rfl⟩ : ∃ c', count = c' + 2 := ⟨count - 2, by omega⟩
      rw [List.take_succ_cons, List.singleton_append, List.cons_append]
      congr 1
      have e2 : 2 * ((start + (c' + 2)) / 2 - (start / 2 + 1)) = c' := by omega
      rw [e2]
      symm
      apply take_snoc
      rw [List.getElem?_drop]
      have := hex_get_hi id ((start + (c' + 2)) / 2) hlt2
      rw [hexDigit_hi]
      rwa [show 2 * ((start + (c' + 2)) / 2) = start + 1 + c' by omega] at this
    · simp only [he, if_false, Res.bind_ok, List.append_nil]
      congr 1
      obtain ⟨c', rfl⟩ : ∃ c', count = c' + 1 := ⟨count - 1, by omega⟩
      rw [List.take_succ_cons, List.singleton_append]
      congr 2
      omega
  · simp only [hs, if_false, Res.bind_ok, List.nil_append]
    rw [fmtLoop_spec id _ _ (by omega)]
    simp only [Res.bind_ok]
    have e1 : 2 * (start / 2) = start := by omega
    rw [e1]
    by_cases he : (start + count) % 2 = 1
    · have hlt2 : (start + count) / 2 < id.length := by omega
      have hi : (if start / 2 < (start + count) / 2 then (start + count) / 2 else start / 2)
          = (start + count) / 2 := by split <;> omega
      simp only [he, if_true, hi, List.getElem?_eq_getElem hlt2, Res.bind_ok]
      congr 1
      obtain ⟨c', rfl⟩ : ∃ c', count = c' + 1 := ⟨count - 1, by omega⟩
      have e2 : 2 * ((start + (c' + 1)) / 2 - start / 2) = c' := by omega
      rw [e2]
      symm
      apply take_snoc
      rw [List.getElem?_drop]
      have := hex_get_hi id ((start + (c' + 1)) / 2) hlt2
      rw [hexDigit_hi]
      rwa [show 2 * ((start + (c' + 1)) / 2) = start + c' by omega] at this
    · simp only [he, if_false, Res.bind_ok, List.append_nil]
      congr 2
      omega

theorem mapM_hexVal_digits (ns : List UInt8) (h : ∀ n ∈ ns, n < 16) : (ns.map digit).mapM hexVal = some ns := by
  induction ns with
  | nil => rfl
  | cons n ns ih =>
    simp only [List.map_cons, List.mapM_cons, hexVal_digit n (h n (by simp)),
      ih (fun m hm => h m (by simp [hm]))]
    rfl

theorem memcmp_spec (n : Nat) (a b : Bytes) (ha : a.length = n) (hb : b.length = n) :
    ∃ r, memcmp n a b = .ok r ∧ (r < 0 ↔ a < b) ∧ (r = 0 ↔ a = b) ∧ (0 < r ↔ b < a) := by
  induction n generalizing a b with
  | zero =>
    have := List.length_eq_zero_iff.mp ha
    have := List.length_eq_zero_iff.mp hb
    subst_vars
    exact ⟨0, rfl, by simp, by simp, by simp⟩
  | succ n ih =>
    match a, b with
    | x :: xs, y :: ys =>
      rw [memcmp]
      rcases (show x < y ∨ x = y ∨ y < x by grind) with h | h | h
      · refine ⟨-1, by simp [h], ?_, ?_, ?_⟩
        · simp [List.cons_lt_cons_iff, h]
        · simp; intro e; subst e; simp at h
        · have h2 : ¬ y < x := by grind
          have h3 : y ≠ x := by grind
          simp [List.cons_lt_cons_iff, h2, h3]
      · subst h
        obtain ⟨r, h1, h2, h3, h4⟩ := ih xs ys (by simpa using ha) (by simpa using hb)
        exact ⟨r, by simp [h1], by simp [h2], by simp [h3], by simp [h4]⟩
      · have h2 : ¬ x < y := by grind
        have h3 : x ≠ y := by grind
        refine ⟨1, by simp [h, h2], ?_, ?_, ?_⟩
        · simp [List.cons_lt_cons_iff, h2, h3]
        · simp [h3]
        · simp [List.cons_lt_cons_iff, h]

theorem digit_lt : ∀ a : UInt8, a < 16 → ∀ b : UInt8, b < 16 → ((digit a < digit b ↔ a < b) ∧ (digit a = digit b ↔ a = b)) :=
  forall_lt16 fun b => forall_lt16 (by revert b; decide +kernel)

theorem byte_lt_iff (x y : UInt8) : x < y ↔ x / 16 < y / 16 ∨ (x / 16 = y / 16 ∧ x % 16 < y % 16) := by
  simp only [UInt8.lt_iff_toNat_lt, ← UInt8.toNat_inj, UInt8.toNat_div, UInt8.toNat_mod]
  simp
  omega

theorem hex_lt_iff (a b : Bytes) : hex a < hex b ↔ a < b := by
  induction a generalizing b with
  | nil =>
    cases b with
    | nil => simp [hex, nibbles]
    | cons y ys => simp [hex, nibbles]
  | cons x xs ih =>
    cases b with
    | nil => simp [hex, nibbles]
    | cons y ys =>
      have ih := ih ys
      simp only [hex, nibbles, List.map_cons, List.cons_lt_cons_iff] at ih ⊢
      rw [ih]
      have h1 := digit_lt _ (div16_lt x) _ (div16_lt y)
      have h2 := digit_lt _ (mod16_lt x) _ (mod16_lt y)
      rw [h1.1, h1.2, h2.1, h2.2, byte_lt_iff x y]
      constructor
      · rintro (h | ⟨h, h' | ⟨h', h''⟩⟩)
        · exact .inl (.inl h)
        · exact .inl (.inr ⟨h, h'⟩)
        · exact .inr ⟨byte_ext x y h h', h''⟩
      · rintro ((h | ⟨h, h'⟩) | ⟨h, h'⟩)
        · exact .inl h
        · exact .inr ⟨h, .inl h'⟩
        · subst h; exact .inr ⟨rfl, .inr ⟨rfl, h'⟩⟩

theorem ncmpLoop_spec (n : Nat) (a b : Bytes) (ha : n ≤ 2 * a.length) (hb : n ≤ 2 * b.length) :
    ncmpLoop n a b = .ok (if (nibbles a).take n = (nibbles b).take n then 0 else 1) := by
  induction n using Nat.strongRecOn generalizing a b with
  | _ n ih =>
    match n, a, b with
    | 0, _, _ => simp [ncmpLoop]
    | 1, x :: xs, y :: ys =>
      simp only [ncmpLoop, nibbles, List.take_succ_cons, List.take_zero]
      by_cases h : x / 16 = y / 16
      · simp [(xor_f0 x y).2 h, h]
      · have : ¬ ((x ^^^ y) &&& 0xf0 = 0) := fun h' => h ((xor_f0 x y).1 h')
        simp [this, h]
    | n + 2, x :: xs, y :: ys =>
      simp only [ncmpLoop, nibbles, List.take_succ_cons]
      by_cases h : x = y
      · subst h
        simp [ih n (by omega) xs ys (by simp at ha; omega) (by simp at hb; omega)]
      · have : ¬ (x / 16 = y / 16 ∧ x % 16 = y % 16) := fun h' => h (byte_ext x y h'.1 h'.2)
        have h3 : ¬ (x / 16 = y / 16 ∧ x % 16 = y % 16 ∧ List.take n (nibbles xs) = List.take n (nibbles ys)) :=
          fun h' => this ⟨h'.1, h'.2.1⟩
        simp [h, h3]
    | 1, [], _ => simp at ha
    | 1, _ :: _, [] => simp at hb
    | n + 2, [], _ => simp at ha
    | n + 2, _ :: _, [] => simp at hb

theorem strval_hi : ∀ v : UInt8, v < 16 → (v <<< 4) / 16 = v ∧ (v <<< 4) % 16 = 0 := by decide +kernel
theorem strval_lo : ∀ v : UInt8, v < 16 → ∀ w : UInt8, w < 16 → (v <<< 4 ||| w) / 16 = v ∧ (v <<< 4 ||| w) % 16 = w :=
  forall_lt16 fun b => forall_lt16 (by revert b; decide +kernel)

theorem nz_of_hexVal : ∀ c : UInt8, (hexVal c).isSome = true → c ≠ 0 := by decide +kernel

/-- full-length comparison against hex text -/
theorem strcmpLoop_hex (id t s : Bytes) (h : t.mapM hexVal = some (nibbles s)) (hl : s.length = id.length)
    (z : UInt8) (rest : Bytes) :
    ∃ r, strcmpLoop id (t ++ z :: rest) = .ok r ∧ (r < 0 ↔ id < s) ∧ (r = 0 ↔ id = s) ∧ (0 < r ↔ s < id) := by
  induction id generalizing t s with
  | nil =>
    have := List.length_eq_zero_iff.mp hl
    subst this
    refine ⟨0, ?_, by simp, by simp, by simp⟩
    cases t with
    | nil => simp [strcmpLoop]
    | cons c t => simp [strcmpLoop]
  | cons a as ih =>
    match s with
    | y :: ys =>
      rw [nibbles] at h
      cases t with
      | nil => simp at h
      | cons c t =>
        simp only [List.mapM_cons] at h
        cases hc : hexVal c with
        | none => simp [hc] at h
        | some v =>
          cases t with
          | nil => simp [hc] at h
          | cons d t =>
            simp only [List.mapM_cons] at h
            cases hd : hexVal d with
            | none => simp [hc, hd] at h
            | some w =>
              cases ht : List.mapM hexVal t with
              | none => simp [hc, hd, ht] at h
              | some vs =>
                simp [hc, hd, ht] at h
                obtain ⟨h1, h2, h3⟩ := h
                have hv := hexVal_lt c v hc
                have hw := hexVal_lt d w hd
                have hlo := strval_lo v hv w hw
                have hcz := nz_of_hexVal c (by simp [hc])
                have hdz := nz_of_hexVal d (by simp [hd])
                have hy : v <<< 4 ||| w = y := byte_ext _ _ (by rw [hlo.1, h1]) (by rw [hlo.2, h2])
                have hvz : ¬ ((v.toNat : Int) < 0) := by omega
                have hwz : ¬ ((w.toNat : Int) < 0) := by omega
                simp only [List.cons_append, strcmpLoop, if_neg hcz, fromhex_eq, hc, if_neg hvz, if_neg hdz, hd, if_neg hwz,
                  Int.toNat_natCast, UInt8.ofNat_toNat, hy]
                by_cases e : a = y
                · subst e
                  obtain ⟨r, g1, g2, g3, g4⟩ := ih t ys (by rw [ht, h3]) (by simpa using hl)
                  exact ⟨r, by simp [g1], by simp [g2], by simp [g3], by simp [g4]⟩
                · refine ⟨(a.toNat : Int) - y.toNat, by simp only [ne_eq, e, not_false_eq_true, if_true], ?_, ?_, ?_⟩
                  · simp only [List.cons_lt_cons_iff, e, false_and, or_false, UInt8.lt_iff_toNat_lt]; omega
                  · have : a.toNat ≠ y.toNat := fun h => e (UInt8.toNat_inj.mp h)
                    simp only [List.cons.injEq, e, false_and, iff_false]; omega
                  · have e' : y ≠ a := fun h => e h.symm
                    simp only [List.cons_lt_cons_iff, e', false_and, or_false, UInt8.lt_iff_toNat_lt]; omega

end Verif.Oid
