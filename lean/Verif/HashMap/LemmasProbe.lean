import Verif.HashMap.Model
import Mathlib.Data.Nat.ModEq
import Mathlib.Data.List.Perm.Subperm
/-! Triangular probing visits every bucket of a power-of-two table exactly once in the first `n` steps. -/
namespace Verif.HashMap

def tri : Nat → Nat
  | 0 => 0
  | s + 1 => tri s + (s + 1)

theorem two_tri (s : Nat) : 2 * tri s = s * (s + 1) := by
  induction s with
  | zero => rfl
  | succ s ih => rw [tri, Nat.mul_add, ih, Nat.mul_comm s (s + 1), ← Nat.mul_comm (s + 1) 2, ← Nat.mul_add, Nat.mul_comm]

/-- the bucket visited at step `s` when the first one is `a` -/
def probe (n a s : Nat) : Nat := (a + tri s) % n

def Pow2 (n : Nat) : Prop := ∃ m, n = 2 ^ m

theorem Pow2.pos {n : Nat} (h : Pow2 n) : 0 < n := by obtain ⟨m, rfl⟩ := h; exact Nat.two_pow_pos m

theorem Pow2.mask {n : Nat} (h : Pow2 n) (x : Nat) : x &&& (n - 1) = x % n := by
  obtain ⟨m, rfl⟩ := h; exact Nat.and_two_pow_sub_one_eq_mod x m

theorem probe_zero (n a : Nat) : probe n a 0 = a % n := rfl

theorem probe_succ {n : Nat} (h : Pow2 n) (a s : Nat) : (probe n a s + (s + 1)) &&& (n - 1) = probe n a (s + 1) := by
  rw [h.mask]
  unfold probe
  rw [Nat.mod_add_mod, tri]
  congr 1; omega

theorem probe_lt {n : Nat} (h : 0 < n) (a s : Nat) : probe n a s < n := Nat.mod_lt _ h

/-- a power of two dividing a product with an odd factor divides the other factor -/
theorem pow2_dvd_of_odd (m : Nat) : ∀ a b : Nat, b % 2 = 1 → 2 ^ m ∣ a * b → 2 ^ m ∣ a := by
  induction m with
  | zero => intro a b _ _; simp
  | succ m ih =>
    intro a b hb hd
    have h2 : 2 ∣ a * b := Nat.dvd_trans ⟨2 ^ m, by rw [Nat.pow_succ, Nat.mul_comm]⟩ hd
    have ha : a % 2 = 0 := by
      rcases Nat.mod_two_eq_zero_or_one a with h | h
      · exact h
      · have : a * b % 2 = 1 := by rw [Nat.mul_mod, h, hb]
        omega
    obtain ⟨c, rfl⟩ : 2 ∣ a := Nat.dvd_of_mod_eq_zero ha
    rw [Nat.pow_succ, Nat.mul_comm (2 ^ m) 2] at hd ⊢
    rw [Nat.mul_assoc] at hd
    exact Nat.mul_dvd_mul_left 2 (ih c b hb (Nat.dvd_of_mul_dvd_mul_left (by omega) hd))

theorem tri_inj {m s t : Nat} (hs : s < t) (ht : t < 2 ^ m) (h : tri s % 2 ^ m = tri t % 2 ^ m) : False := by
  have h1 := two_tri s
  have h2 := two_tri t
  -- 2 (tri t - tri s) = (t - s) (t + s + 1)
  obtain ⟨d, rfl⟩ : ∃ d, t = s + d := ⟨t - s, by omega⟩
  have hd : tri s ≤ tri (s + d) := by
    have : s * (s + 1) ≤ (s + d) * (s + d + 1) := Nat.mul_le_mul (by omega) (by omega)
    omega
  have hdvd : 2 ^ m ∣ tri (s + d) - tri s := (Nat.modEq_iff_dvd' hd).mp h
  have hprod : 2 * (tri (s + d) - tri s) = d * (2 * s + d + 1) := by
    rw [Nat.mul_sub, h1, h2]
    have e : (s + d) * (s + d + 1) = s * (s + 1) + d * (2 * s + d + 1) := by
      simp only [Nat.add_mul, Nat.mul_add, Nat.mul_one]
      have : s * d = d * s := Nat.mul_comm _ _
      have : d * (2 * s) = 2 * (d * s) := by rw [Nat.mul_left_comm]
      omega
    omega
  have hdvd2 : 2 ^ (m + 1) ∣ d * (2 * s + d + 1) := by
    rw [← hprod, Nat.pow_succ, Nat.mul_comm (2 ^ m) 2]
    exact Nat.mul_dvd_mul_left 2 hdvd
  have hpow : 2 ^ (m + 1) = 2 * 2 ^ m := by rw [Nat.pow_succ, Nat.mul_comm]
  rcases Nat.mod_two_eq_zero_or_one d with hp | hp
  · have := pow2_dvd_of_odd (m + 1) d (2 * s + d + 1) (by omega) hdvd2
    have := Nat.le_of_dvd (by omega) this
    omega
  · rw [Nat.mul_comm] at hdvd2
    have := pow2_dvd_of_odd (m + 1) (2 * s + d + 1) d hp hdvd2
    have := Nat.le_of_dvd (by omega) this
    omega

theorem probe_inj {n : Nat} (hn : Pow2 n) (a : Nat) {s t : Nat} (hs : s < n) (ht : t < n) (h : probe n a s = probe n a t) : s = t := by
  obtain ⟨m, rfl⟩ := hn
  have h' : tri s % 2 ^ m = tri t % 2 ^ m := Nat.ModEq.add_left_cancel' a h
  rcases Nat.lt_trichotomy s t with hlt | heq | hgt
  · exact (tri_inj hlt ht h').elim
  · exact heq
  · exact (tri_inj hgt hs h'.symm).elim

/-- pigeonhole: an injective map of `[0, n)` into itself is onto -/
theorem pigeon : ∀ (n : Nat) (f : Nat → Nat), (∀ s, s < n → f s < n) → (∀ s t, s < n → t < n → f s = f t → s = t) →
    ∀ i, i < n → ∃ s, s < n ∧ f s = i := by
  intro n f hlt hinj i hi
  have hnd : ((List.range n).map f).Nodup := by
    rw [List.Nodup, List.pairwise_map]
    have := List.nodup_range (n := n)
    refine List.Pairwise.imp_of_mem ?_ this
    intro a b ha hb hab h
    exact hab (hinj a b (List.mem_range.mp ha) (List.mem_range.mp hb) h)
  have hsub : (List.range n).map f ⊆ List.range n := by
    intro x hx
    obtain ⟨s, hs, rfl⟩ := List.mem_map.mp hx
    exact List.mem_range.mpr (hlt s (List.mem_range.mp hs))
  have hperm : ((List.range n).map f).Perm (List.range n) :=
    (List.subperm_of_subset hnd hsub).perm_of_length_le (by simp)
  have := hperm.symm.mem_iff.mp (List.mem_range.mpr hi)
  obtain ⟨s, hs, h⟩ := List.mem_map.mp this
  exact ⟨s, List.mem_range.mp hs, h⟩

theorem probe_surj {n : Nat} (hn : Pow2 n) (a i : Nat) (hi : i < n) : ∃ s, s < n ∧ probe n a s = i :=
  pigeon n (probe n a) (fun s _ => probe_lt hn.pos a s) (fun _ _ hs ht h => probe_inj hn a hs ht h) i hi

end Verif.HashMap
