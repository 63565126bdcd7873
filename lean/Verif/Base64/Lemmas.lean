import Verif.Base64.Model
import Verif.Base64.Spec
namespace Verif.Base64
open Spec

/-! ## bit fields are quotients and remainders -/

theorem mask (a k : Nat) : a &&& (2 ^ k - 1) = a % 2 ^ k := Nat.and_two_pow_sub_one_eq_mod a k
theorem or_add {a b k : Nat} (h : b < 2 ^ k) : a <<< k ||| b = a * 2 ^ k + b := by
  rw [← Nat.shiftLeft_add_eq_or_of_lt h, Nat.shiftLeft_eq]

theorem mid1 (a b : UInt8) : (a.toNat &&& 0x03) <<< 4 ||| b.toNat >>> 4 = (a.toNat % 4) * 16 + b.toNat / 16 := by
  have hb := b.toNat_lt
  rw [show (0x03 : Nat) = 2 ^ 2 - 1 from rfl, mask, or_add (by rw [Nat.shiftRight_eq_div_pow]; omega), Nat.shiftRight_eq_div_pow]
theorem mid2 (a b : UInt8) : (a.toNat &&& 0x0f) <<< 2 ||| b.toNat >>> 6 = (a.toNat % 16) * 4 + b.toNat / 64 := by
  have hb := b.toNat_lt
  rw [show (0x0f : Nat) = 2 ^ 4 - 1 from rfl, mask, or_add (by rw [Nat.shiftRight_eq_div_pow]; omega), Nat.shiftRight_eq_div_pow]
theorem mid2' (a : UInt8) : (a.toNat &&& 0x0f) <<< 2 = (a.toNat % 16) * 4 := by
  rw [show (0x0f : Nat) = 2 ^ 4 - 1 from rfl, mask, Nat.shiftLeft_eq]
theorem mid1' (a : UInt8) : (a.toNat &&& 0x03) <<< 4 ||| 0 >>> 4 = (a.toNat % 4) * 16 := by
  rw [show (0x03 : Nat) = 2 ^ 2 - 1 from rfl, mask, or_add (by decide)]; simp
theorem fst (a : UInt8) : a.toNat >>> 2 = a.toNat / 4 := by rw [Nat.shiftRight_eq_div_pow]
theorem lst (a : UInt8) : a.toNat &&& 0x3f = a.toNat % 64 := mask _ 6

theorem out1 {a b : Nat} (ha : a < 64) (hb : b < 64) : (a <<< 2) ||| (b &&& 0x30) >>> 4 = a * 4 + b / 16 := by
  have h : (b &&& 0x30) >>> 4 = b / 16 := (by decide +kernel : ∀ b : Fin 64, (b.val &&& 0x30) >>> 4 = b.val / 16) ⟨b, hb⟩
  rw [h, or_add (by omega)]
theorem out2 {b c : Nat} (hc : c < 64) : ((b &&& 0x0f) <<< 4) ||| ((c &&& 0x3c) >>> 2) = (b % 16) * 16 + c / 4 := by
  have h : (c &&& 0x3c) >>> 2 = c / 4 := (by decide +kernel : ∀ b : Fin 64, (b.val &&& 0x3c) >>> 2 = b.val / 4) ⟨c, hc⟩
  rw [h, or_add (by omega), show (0x0f : Nat) = 2 ^ 4 - 1 from rfl, mask]
theorem out3 {c d : Nat} (hd : d < 64) : (c &&& 0x03) <<< 6 ||| (d &&& 0x3f) = (c % 4) * 64 + d := by
  rw [show (0x3f : Nat) = 2 ^ 6 - 1 from rfl, show (0x03 : Nat) = 2 ^ 2 - 1 from rfl, mask, mask, or_add (by omega), Nat.mod_eq_of_lt (a := d) hd]

/-! ## the tables -/

theorem enc64_eq : ∀ v : Fin 64, tab enc64 v = digit64 v := by decide +kernel
theorem enc85_eq : ∀ v : Fin 85, tab enc85 v = digit85 v := by decide +kernel
theorem dec64_enc : ∀ v : Fin 64, dec64.getD (digit64 v).toNat (-1) = v.val := by decide +kernel
theorem dec85_enc : ∀ v : Fin 85, dec85.getD (digit85 v).toNat (-1) - 1 = v.val := by decide +kernel
theorem dec64_inv : ∀ c : UInt8, dec64.getD c.toNat (-1) < 0 ∨ (c = digit64 (dec64.getD c.toNat (-1)).toNat ∧ (dec64.getD c.toNat (-1)).toNat < 64) ∨ (c = c!"=" ∧ dec64.getD c.toNat (-1) = 0) := by decide +kernel
theorem dec85_inv : ∀ c : UInt8, dec85.getD c.toNat (-1) - 1 < 0 ∨ (c = digit85 (dec85.getD c.toNat (-1) - 1).toNat ∧ (dec85.getD c.toNat (-1) - 1).toNat < 85) := by decide +kernel

theorem e64 {v : Nat} (h : v < 64) : tab enc64 v = digit64 v := enc64_eq ⟨v, h⟩
theorem e85 {v : Nat} (h : v < 85) : tab enc85 v = digit85 v := enc85_eq ⟨v, h⟩
theorem d64 {v : Nat} (h : v < 64) : dec64.getD (digit64 v).toNat (-1) = v := dec64_enc ⟨v, h⟩
theorem d85 {v : Nat} (h : v < 85) : dec85.getD (digit85 v).toNat (-1) - 1 = v := dec85_enc ⟨v, h⟩

theorem char64 (c : UInt8) (v : Nat) : Char64 c v ↔ dec64.getD c.toNat (-1) = v := by
  constructor
  · rintro (⟨h, rfl⟩ | ⟨rfl, rfl⟩)
    · exact d64 h
    · decide +kernel
  · intro h
    rcases dec64_inv c with h1 | ⟨h1, h2⟩ | ⟨h1, h2⟩
    · omega
    · left; rw [h] at h1 h2; exact ⟨by simpa using h2, by simpa using h1⟩
    · right; exact ⟨h1, by omega⟩

theorem char85 (c : UInt8) (v : Nat) : Char85 c v ↔ dec85.getD c.toNat (-1) - 1 = v := by
  constructor
  · rintro ⟨h, rfl⟩; exact d85 h
  · intro h
    rcases dec85_inv c with h1 | ⟨h1, h2⟩
    · omega
    · rw [h] at h1 h2; exact ⟨by simpa using h2, by simpa using h1⟩

theorem digits4 (n : Nat) : toDigits 64 4 n = [n / 64 / 64 / 64 % 64, n / 64 / 64 % 64, n / 64 % 64, n % 64] := rfl
theorem bytes3 (a b c : UInt8) : bytesNum [a, b, c] = (a.toNat * 256 + b.toNat) * 256 + c.toNat := by simp [bytesNum, num]

theorem toDigits_length (base : Nat) : ∀ k n, (toDigits base k n).length = k
  | 0, _ => rfl
  | k + 1, n => by rw [toDigits, List.length_append, toDigits_length base k]; rfl

theorem toDigits_lt {base : Nat} (hb : 0 < base) : ∀ k n, ∀ d ∈ toDigits base k n, d < base
  | 0, _, _, h => by cases h
  | k + 1, n, d, h => by
    rw [toDigits] at h
    rcases List.mem_append.mp h with h | h
    · exact toDigits_lt hb k _ d h
    · rw [List.mem_singleton.mp h]; exact Nat.mod_lt _ hb

theorem num_append (base : Nat) (l : List Nat) (d : Nat) : num base (l ++ [d]) = num base l * base + d := by simp [num]

theorem num_toDigits {base : Nat} : ∀ k n, n < base ^ k → num base (toDigits base k n) = n
  | 0, n, h => by simp at h; subst h; rfl
  | k + 1, n, h => by
    have hb : 0 < base := by
      rcases Nat.eq_zero_or_pos base with rfl | h0
      · simp at h
      · exact h0
    rw [toDigits, num_append, num_toDigits k (n / base) (by rw [Nat.div_lt_iff_lt_mul hb]; rwa [Nat.pow_succ] at h), Nat.mul_comm, Nat.div_add_mod]

theorem toDigits_num {base : Nat} : ∀ (l : List Nat), (∀ d ∈ l, d < base) → toDigits base l.length (num base l) = l := by
  intro l
  induction l using list_snoc_induction with
  | hnil => intro _; rfl
  | hsnoc l a ih =>
    intro h
    have ha := h a (by simp)
    rw [List.length_append, List.length_singleton, num_append, toDigits, show (num base l * base + a) / base = num base l by
      rw [Nat.mul_comm, Nat.mul_add_div (by omega), Nat.div_eq_of_lt ha]; rfl, show (num base l * base + a) % base = a by rw [Nat.mul_comm, Nat.mul_add_mod, Nat.mod_eq_of_lt ha],
      ih (fun d hd => h d (by simp [hd]))]

theorem num_lt {base : Nat} : ∀ (l : List Nat), (∀ d ∈ l, d < base) → num base l < base ^ l.length := by
  intro l
  induction l using list_snoc_induction with
  | hnil => intro _; simp [num]
  | hsnoc l a ih =>
    intro h
    have h1 := ih (fun d hd => h d (by simp [hd]))
    have ha := h a (by simp)
    rw [num_append, List.length_append, List.length_singleton, Nat.pow_succ]
    calc num base l * base + a < num base l * base + base := by omega
      _ = (num base l + 1) * base := by rw [Nat.add_mul, Nat.one_mul]
      _ ≤ base ^ l.length * base := Nat.mul_le_mul_right _ h1

theorem bytesNum_lt (b : Bytes) : bytesNum b < 256 ^ b.length := by
  have := num_lt (base := 256) (b.map UInt8.toNat) (by intro d hd; obtain ⟨c, _, rfl⟩ := List.mem_map.mp hd; exact c.toNat_lt)
  simpa [bytesNum] using this

/-! ## base85 pieces -/

theorem bytesNum_zero (k : Nat) : bytesNum (List.replicate k 0) = 0 := by
  induction k with
  | zero => rfl
  | succ k ih => simp only [bytesNum, List.replicate_succ, List.map_cons] at *; simpa [num] using ih

theorem acc85_eq : ∀ (b : Bytes) (k acc : Nat), b.length ≤ k → (∃ q, acc = q <<< (8 * k)) → acc85 b (8 * k - 8) acc = acc + bytesNum (b ++ List.replicate (k - b.length) 0)
  | [], k, acc, _, _ => by
    simp [acc85, bytesNum_zero]
  | ch :: rest, 0, _, h, _ => by simp at h
  | ch :: rest, k + 1, acc, h, ⟨q, hq⟩ => by
    simp only [List.length_cons] at h
    have hc := ch.toNat_lt
    have hlt : ch.toNat <<< (8 * k) < 2 ^ (8 * (k + 1)) := by
      rw [Nat.shiftLeft_eq, show 8 * (k + 1) = 8 + 8 * k by omega, Nat.pow_add]
      exact Nat.mul_lt_mul_of_pos_right hc (Nat.two_pow_pos _)
    have hor : acc ||| ch.toNat <<< (8 * k) = acc + ch.toNat <<< (8 * k) := by
      rw [hq, ← Nat.shiftLeft_add_eq_or_of_lt hlt]
    have ih := acc85_eq rest k (acc + ch.toNat <<< (8 * k)) (by omega) ⟨q * 256 + ch.toNat, by
      rw [hq, Nat.shiftLeft_eq, Nat.shiftLeft_eq, Nat.shiftLeft_eq, show 8 * (k + 1) = 8 + 8 * k by omega, Nat.pow_add, Nat.add_mul, Nat.mul_assoc]⟩
    rw [acc85, show 8 * (k + 1) - 8 = 8 * k by omega, hor, ih]
    have hn : ∀ (l : List Nat) (a : Nat), l.foldl (fun n d => n * 256 + d) a = a * 256 ^ l.length + l.foldl (fun n d => n * 256 + d) 0 := by
      intro l
      induction l with
      | nil => simp
      | cons x l ihl =>
        intro a
        rw [List.foldl_cons, List.foldl_cons, ihl, ihl (0 * 256 + x), List.length_cons, Nat.pow_succ]
        simp only [Nat.add_mul, Nat.zero_mul, Nat.zero_add, Nat.mul_assoc, Nat.add_assoc]
        rw [Nat.mul_comm 256]
    rw [show k + 1 - (ch :: rest).length = k - rest.length by simp]
    have : bytesNum (ch :: rest ++ List.replicate (k - rest.length) 0) = ch.toNat * 256 ^ k + bytesNum (rest ++ List.replicate (k - rest.length) 0) := by
      rw [List.cons_append, bytesNum, num, List.map_cons, List.foldl_cons, hn, Nat.zero_mul, Nat.zero_add]
      congr 2
      simp only [List.length_map, List.length_append, List.length_replicate]
      congr 1; omega
    rw [this, Nat.shiftLeft_eq, show (2 : Nat) ^ (8 * k) = 256 ^ k by rw [Nat.pow_mul]]
    omega

theorem digits85_eq : ∀ (k n : Nat) (out : List UInt8), digits85 k n out = (toDigits 85 k n).map digit85 ++ out
  | 0, _, _ => rfl
  | k + 1, n, out => by
    rw [digits85, digits85_eq k, toDigits, List.map_append, e85 (Nat.mod_lt _ (by decide))]; simp

/-- rotating by a byte -/
theorem rot {n : Nat} (h : n < 2 ^ 32) : ((n <<< 8) % 2 ^ 32) ||| (n >>> 24) = n % 2 ^ 24 * 256 + n / 2 ^ 24 := by
  have h1 : (n <<< 8) % 2 ^ 32 = (n % 2 ^ 24) <<< 8 := by
    rw [Nat.shiftLeft_eq, Nat.shiftLeft_eq, show (2 : Nat) ^ 32 = 2 ^ 24 * 2 ^ 8 by rfl, Nat.mul_mod_mul_right]
  rw [h1, or_add (by rw [Nat.shiftRight_eq_div_pow]; omega), Nat.shiftRight_eq_div_pow]

theorem bytes85_eq (n : Nat) (h : n < 2 ^ 32) (k : Nat) (hk : k ≤ 4) : bytes85 k n = ((toDigits 256 4 n).map UInt8.ofNat).take k := by
  have ofNat_mod : ∀ a b : Nat, a % 256 = b % 256 → UInt8.ofNat a = UInt8.ofNat b := by
    intro a b hab
    apply UInt8.toNat_inj.mp
    simpa using hab
  have bs : ∀ k w x y z, w < 256 → x < 256 → y < 256 → z < 256 →
      bytes85 (k + 1) (((w * 256 + x) * 256 + y) * 256 + z) = UInt8.ofNat w :: bytes85 k (((x * 256 + y) * 256 + z) * 256 + w) := by
    intro k w x y z hw hx hy hz
    rw [bytes85, rot (by omega)]
    have e : (((w * 256 + x) * 256 + y) * 256 + z) % 2 ^ 24 * 256 + (((w * 256 + x) * 256 + y) * 256 + z) / 2 ^ 24 = ((x * 256 + y) * 256 + z) * 256 + w := by omega
    rw [e]
    congr 1
    apply ofNat_mod; omega
  have full : bytes85 4 n = (toDigits 256 4 n).map UInt8.ofNat := by
    obtain ⟨w, x, y, z, hw, hx, hy, hz, rfl⟩ : ∃ w x y z, w < 256 ∧ x < 256 ∧ y < 256 ∧ z < 256 ∧ n = ((w * 256 + x) * 256 + y) * 256 + z :=
      ⟨n / 256 / 256 / 256, n / 256 / 256 % 256, n / 256 % 256, n % 256, by omega, by omega, by omega, by omega, by omega⟩
    rw [bs _ _ _ _ _ hw hx hy hz, bs _ _ _ _ _ hx hy hz hw, bs _ _ _ _ _ hy hz hw hx, bs _ _ _ _ _ hz hw hx hy]
    have : toDigits 256 4 (((w * 256 + x) * 256 + y) * 256 + z) = [w, x, y, z] := by
      have := toDigits_num (base := 256) [w, x, y, z] (by simp; omega)
      simpa [num] using this
    rw [this]
    rfl
  have pre : ∀ j k m, j ≤ k → (bytes85 k m).take j = bytes85 j m := by
    intro j
    induction j with
    | zero => intro k m _; rfl
    | succ j ih =>
      intro k m hk
      obtain ⟨k, rfl⟩ : ∃ k', k = k' + 1 := ⟨k - 1, by omega⟩
      rw [bytes85, bytes85, List.take_succ_cons, ih k _ (by omega)]
  rw [← full, pre k 4 n hk]

/-- four digits below 85 never overflow 32 bits, so the arithmetic of the code is exact -/
theorem group85_eq {a b c d e : UInt8} {va vb vc vd ve : Nat} (ha : Char85 a va) (hb : Char85 b vb) (hc : Char85 c vc) (hd : Char85 d vd) (he : Char85 e ve) (t : Bytes) :
    group85 (a :: b :: c :: d :: e :: t) = if num 85 [va, vb, vc, vd, ve] < 2 ^ 32 then .ok (num 85 [va, vb, vc, vd, ve], t) else .err (-1) := by
  have la := ha.1; have lb := hb.1; have lc := hc.1; have ld := hd.1; have le := he.1
  rw [char85] at ha hb hc hd he
  unfold group85
  have h4 : four85 4 (a :: b :: c :: d :: e :: t) 0 = .ok (num 85 [va, vb, vc, vd], e :: t) := by
    simp only [four85, ha, hb, hc, hd, Int.toNat_natCast]
    rw [if_neg (by omega), if_neg (by omega), if_neg (by omega), if_neg (by omega)]
    simp only [num, List.foldl_cons, List.foldl_nil]
    congr 2
    omega
  rw [h4]
  simp only [Res.bind_ok, he, Int.toNat_natCast]
  rw [if_neg (by omega)]
  have hn : num 85 [va, vb, vc, vd, ve] = num 85 [va, vb, vc, vd] * 85 + ve := by simp [num]
  have hn4 : num 85 [va, vb, vc, vd] < 85 ^ 4 := num_lt _ (by simp; omega)
  rw [hn]
  generalize num 85 [va, vb, vc, vd] = m at *
  by_cases hlt : m * 85 + ve < 2 ^ 32
  · rw [if_pos hlt, if_neg (by omega)]
    congr 2
    omega
  · rw [if_neg hlt, if_pos (by omega)]

end Verif.Base64
