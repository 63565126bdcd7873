import Verif.RefPacked.Model
import Verif.RefPacked.Spec
import Verif.Oid.Props
namespace Verif.RefPacked
open Verif.RefPacked.Spec Verif.Oid.Spec

/-! ## memchr / memrchr -/

theorem memchr_skip (b : Bytes) (c : UInt8) (U R : Bytes) (pos n : Nat) (hb : b.drop pos = U ++ R) (hU : c ∉ U) (hn : U.length ≤ n) :
    memchr b c pos n = memchr b c (pos + U.length) (n - U.length) := by
  induction U generalizing pos n with
  | nil => simp
  | cons x U ih =>
    obtain ⟨m, rfl⟩ : ∃ m, n = m + 1 := ⟨n - 1, by simp at hn; omega⟩
    have hx : b[pos]? = some x := by
      have : (b.drop pos)[0]? = some x := by rw [hb]; rfl
      simpa using this
    have hd : b.drop (pos + 1) = U ++ R := by
      rw [show b.drop (pos + 1) = (b.drop pos).drop 1 by simp, hb]; rfl
    simp only [memchr, hx]
    rw [if_neg (by intro h; exact hU (by simp [h]))]
    rw [ih (pos + 1) m hd (fun h => hU (List.mem_cons_of_mem _ h)) (by simp at hn; omega)]
    simp only [List.length_cons]
    congr 1 <;> omega

theorem memchr_found (b : Bytes) (c : UInt8) (U R : Bytes) (pos n : Nat) (hb : b.drop pos = U ++ c :: R) (hU : c ∉ U)
    (hn : U.length < n) : memchr b c pos n = .ok (some (pos + U.length)) := by
  rw [memchr_skip b c U (c :: R) pos n hb hU (by omega)]
  obtain ⟨m, hm⟩ : ∃ m, n - U.length = m + 1 := ⟨n - U.length - 1, by omega⟩
  have hx : b[pos + U.length]? = some c := by
    have : (b.drop pos)[U.length]? = some c := by rw [hb]; simp
    simpa using this
  rw [hm]
  simp [memchr, hx]

theorem memchr_cases (b : Bytes) (c : UInt8) (pos n : Nat) (h : pos + n ≤ b.length) :
    (memchr b c pos n = .ok none) ∨ ∃ i, pos ≤ i ∧ i < pos + n ∧ memchr b c pos n = .ok (some i) := by
  induction n generalizing pos with
  | zero => left; rfl
  | succ n ih =>
    have hlt : pos < b.length := by omega
    simp only [memchr, List.getElem?_eq_getElem hlt]
    split
    · right; exact ⟨pos, by omega, by omega, rfl⟩
    · rcases ih (pos + 1) (by omega) with h1 | ⟨i, h1, h2, h3⟩
      · left; exact h1
      · right; exact ⟨i, by omega, by omega, h3⟩

theorem memrchr_cases (b : Bytes) (c : UInt8) (lo n : Nat) (h : lo + n ≤ b.length) :
    (memrchr b c lo n = .ok none) ∨ ∃ i, lo ≤ i ∧ i < lo + n ∧ memrchr b c lo n = .ok (some i) := by
  induction n with
  | zero => left; rfl
  | succ n ih =>
    have hlt : lo + n < b.length := by omega
    simp only [memrchr, List.getElem?_eq_getElem hlt]
    split
    · right; exact ⟨lo + n, by omega, by omega, rfl⟩
    · rcases ih (by omega) with h1 | ⟨i, h1, h2, h3⟩
      · left; exact h1
      · right; exact ⟨i, by omega, by omega, h3⟩

theorem memrchr_none (b : Bytes) (c : UInt8) (lo : Nat) (V R : Bytes) (hb : b.drop lo = V ++ R) (hV : c ∉ V) :
    memrchr b c lo V.length = .ok none := by
  induction V using list_snoc_induction generalizing R with
  | hnil => rfl
  | hsnoc V x ih =>
    have hx : b[lo + V.length]? = some x := by
      have : (b.drop lo)[V.length]? = some x := by rw [hb]; simp
      simpa using this
    rw [show (V ++ [x]).length = V.length + 1 by simp]
    simp only [memrchr, hx]
    rw [if_neg (by intro h; exact hV (by simp [h]))]
    exact ih ([x] ++ R) (by rw [hb]; simp) (fun h => hV (by simp [h]))

theorem memrchr_found (b : Bytes) (c : UInt8) (lo : Nat) (U V R : Bytes) (hb : b.drop lo = U ++ c :: V ++ R) (hV : c ∉ V) :
    memrchr b c lo (U.length + 1 + V.length) = .ok (some (lo + U.length)) := by
  induction V using list_snoc_induction generalizing R with
  | hnil =>
    have hx : b[lo + U.length]? = some c := by
      have : (b.drop lo)[U.length]? = some c := by rw [hb]; simp
      simpa using this
    simp [memrchr, hx]
  | hsnoc V x ih =>
    have hx : b[lo + (U.length + 1 + V.length)]? = some x := by
      have : (b.drop lo)[U.length + 1 + V.length]? = some x := by
        rw [hb, List.append_assoc, List.cons_append, List.getElem?_append_right (by omega)]
        rw [show U.length + 1 + V.length - U.length = V.length + 1 by omega]
        simp
      simpa using this
    rw [show U.length + 1 + (V ++ [x]).length = (U.length + 1 + V.length) + 1 by simp; omega]
    simp only [memrchr, hx]
    rw [if_neg (by intro h; exact hV (by simp [h]))]
    exact ih ([x] ++ R) (by rw [hb]; simp) (fun h => hV (by simp [h]))

/-! ## Safety on arbitrary content -/

theorem startOfRecord_safe (b : Bytes) (buf : Nat) (fuel p : Nat) (h1 : buf ≤ p) (h2 : p < b.length) (hf : p - buf < fuel) :
    ∃ r, startOfRecord b buf fuel p = .ok r ∧ buf ≤ r ∧ r ≤ p := by
  induction fuel generalizing p with
  | zero => omega
  | succ fuel ih =>
    unfold startOfRecord
    rcases memrchr_cases b c!"\n" buf (p - buf) (by omega) with h | ⟨i, hi1, hi2, h⟩
    · rw [h]; exact ⟨buf, rfl, by omega, by omega⟩
    · rw [h]
      have hlt : i + 1 < b.length := by omega
      simp only [Res.bind_ok, List.getElem?_eq_getElem hlt]
      split
      · rename_i hc
        obtain ⟨r, hr, g1, g2⟩ := ih (i - 1) (by omega) (by omega) (by omega)
        exact ⟨r, hr, g1, by omega⟩
      · exact ⟨i + 1, rfl, by omega, by omega⟩

theorem endOfRecord_safe (b : Bytes) (stop : Nat) (hs : stop ≤ b.length) (fuel p : Nat) (h1 : p ≤ stop) (hf : stop - p < fuel) :
    ∃ r, endOfRecord b stop fuel p = .ok r ∧ p ≤ r ∧ r ≤ stop ∧ (p < stop → p < r) := by
  induction fuel generalizing p with
  | zero => omega
  | succ fuel ih =>
    unfold endOfRecord
    rcases memchr_cases b c!"\n" p (stop - p) (by omega) with h | ⟨i, hi1, hi2, h⟩
    · rw [h]; exact ⟨stop, rfl, h1, by omega, by omega⟩
    · rw [h]
      simp only [Res.bind_ok]
      split
      · have hlt : i + 1 < b.length := by omega
        simp only [List.getElem?_eq_getElem hlt]
        split
        · obtain ⟨r, hr, g1, g2, g3⟩ := ih (i + 2) (by omega) (by omega)
          exact ⟨r, hr, by omega, by omega, by omega⟩
        · exact ⟨i + 1, rfl, by omega, by omega, by omega⟩
      · exact ⟨i + 1, rfl, by omega, by omega, by omega⟩

theorem cmpRecord_safe (size : Nat) (b : Bytes) (rec : Nat) (h : rec ≤ b.length) (name : Bytes) :
    ∃ c, cmpRecord size b rec (b.length - rec) name = .ok c := by
  unfold cmpRecord
  split
  · exact ⟨-1, rfl⟩
  · rename_i hlt
    simp only
    have key : ∀ d, d ≤ b.length - rec - (2 * size + 1) →
        slice b (rec + (2 * size + 1)) (min name.length d) = .ok ((b.drop (rec + (2 * size + 1))).take (min name.length d)) := by
      intro d hd
      unfold slice
      rw [if_pos (by omega)]
    rcases memchr_cases b c!"\n" (rec + (2 * size + 1)) (b.length - rec - (2 * size + 1)) (by omega) with h1 | ⟨i, hi1, hi2, h1⟩
    · rw [h1]
      simp only [Res.bind_ok]
      rw [key _ (by omega)]
      simp only [Res.bind_ok]
      split <;> exact ⟨_, rfl⟩
    · rw [h1]
      simp only [Res.bind_ok]
      rw [key _ (by omega)]
      simp only [Res.bind_ok]
      split <;> exact ⟨_, rfl⟩

theorem fromPrefix_not_ub (size : Nat) (s : Bytes) (h : 2 * size ≤ s.length) : Oid.fromPrefix size s (2 * size) ≠ .ub :=
  (Oid.C02_from_prefix size s (2 * size) h).2.2

theorem res_bind_not_ub {α β : Type} (r : Res α) (f : α → Res β) (h1 : r ≠ .ub) (h2 : ∀ a, r = .ok a → f a ≠ .ub) : (r >>= f) ≠ .ub := by
  cases r with
  | ok a => simpa using h2 a rfl
  | err e => simp
  | ub => exact absurd rfl h1

theorem cmpRecord_short (size : Nat) (b : Bytes) (rec avail : Nat) (name : Bytes) (c : Int) (h : cmpRecord size b rec avail name = .ok c)
    (hc : ¬ c < 0) : 2 * size + 3 ≤ avail := by
  unfold cmpRecord at h
  split at h
  · cases h; omega
  · omega

theorem readRecord_safe (size : Nat) (b : Bytes) (rec : Nat) (h : 2 * size + 3 ≤ b.length - rec) : readRecord size b rec ≠ .ub := by
  unfold readRecord
  rw [if_neg (by omega)]
  refine res_bind_not_ub _ _ (fromPrefix_not_ub _ _ (by simp; omega)) ?_
  intro oid _
  simp only
  rcases memchr_cases b c!"\n" (rec + (2 * size + 1)) (b.length - (rec + (2 * size + 1))) (by omega) with h1 | ⟨i, hi1, hi2, h1⟩
  · rw [h1]; simp
  · rw [h1]
    simp only [Res.bind_ok]
    split
    · rename_i hlt
      simp only [List.getElem?_eq_getElem hlt]
      split
      · split
        · simp
        · refine res_bind_not_ub _ _ (fromPrefix_not_ub _ _ (by simp; omega)) ?_
          intro p _; simp
      · simp
    · simp

theorem searchLoop_safe (size : Nat) (b name : Bytes) (fuel left right : Nat) (h : right ≤ b.length) (hf : right - left < fuel) :
    searchLoop size b name fuel left right ≠ .ub := by
  induction fuel generalizing left right with
  | zero => omega
  | succ fuel ih =>
    unfold searchLoop
    split
    · rename_i hlt
      simp only
      obtain ⟨r, hr, g1, g2⟩ := startOfRecord_safe b left (b.length + 1) (left + (right - left) / 2) (by omega) (by omega) (by omega)
      rw [hr]
      simp only [Res.bind_ok]
      obtain ⟨c, hc⟩ := cmpRecord_safe size b r (by omega) name
      rw [hc]
      simp only [Res.bind_ok]
      split
      · obtain ⟨e, he, k1, k2, k3⟩ := endOfRecord_safe b right h (b.length + 1) (left + (right - left) / 2) (by omega) (by omega)
        rw [he]
        simp only [Res.bind_ok]
        exact ih e right h (by omega)
      · rename_i hneg
        split
        · exact ih left r (by omega) (by omega)
        · exact readRecord_safe size b r (cmpRecord_short size b r _ name c hc hneg)
    · simp

theorem skipHeader_safe (b : Bytes) (fuel left : Nat) (hf : b.length - left < fuel) :
    skipHeader b fuel left ≠ .ub ∧ ∀ r, skipHeader b fuel left = .ok r → left ≤ r := by
  induction fuel generalizing left with
  | zero => omega
  | succ fuel ih =>
    unfold skipHeader
    split
    · rename_i hlt
      simp only [List.getElem?_eq_getElem hlt]
      split
      · rcases memchr_cases b c!"\n" left (b.length - left) (by omega) with h1 | ⟨i, hi1, hi2, h1⟩
        · rw [h1]; simp
        · rw [h1]
          simp only [Res.bind_ok]
          obtain ⟨k1, k2⟩ := ih (i + 1) (by omega)
          exact ⟨k1, fun r hr => by have := k2 r hr; omega⟩
      · simp
    · simp

end Verif.RefPacked
