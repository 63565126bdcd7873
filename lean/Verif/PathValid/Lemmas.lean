import Verif.PathValid.Model
import Verif.PathValid.Spec
import Verif.Utf8.Props
/-! # Lemmas on the checks of names -/
namespace Verif.PathValid
open Spec Utf8.Spec

theorem lower_eq (c : UInt8) : lower c = low c := by revert c; decide +kernel
theorem low_zero (c : UInt8) : low c = 0 ↔ c = 0 := by revert c; decide +kernel
theorem low_low (c : UInt8) : low (low c) = low c := by revert c; decide +kernel
theorem low_slash (c : UInt8) : low c = c!"/" ↔ c = c!"/" := by revert c; decide +kernel

theorem peek_zero_cons (c : UInt8) (s : Bytes) : peek (c :: s) 0 = c := rfl
theorem peek_succ_cons (c : UInt8) (s : Bytes) (i : Nat) : peek (c :: s) (i + 1) = peek s i := by simp [peek]
theorem peek_nil (i : Nat) : peek [] i = 0 := rfl
theorem peek_append_lt (a b : Bytes) (i : Nat) (h : i < a.length) : peek (a ++ b) i = peek a i := by
  simp [peek, List.getD_eq_getElem?_getD, List.getElem?_append_left h]
theorem peek_append_len (a b : Bytes) : peek (a ++ b) a.length = peek b 0 := by
  simp [peek, List.getD_eq_getElem?_getD, List.getElem?_append_right]
theorem peek_append_ge (a b : Bytes) (i : Nat) : peek (a ++ b) (a.length + i) = peek b i := by
  simp [peek, List.getD_eq_getElem?_getD, List.getElem?_append_right]

/-! ### comparing without case -/

theorem caseEq_iff (s r : Bytes) (h0 : 0 ∉ r) : caseEq s r = true ↔ ∃ a t, s = a ++ t ∧ SameName a r := by
  induction r generalizing s with
  | nil => exact ⟨fun _ => ⟨[], s, rfl, rfl⟩, fun _ => by simp [caseEq]⟩
  | cons b bs ih =>
    have hb : b ≠ 0 := fun h => h0 (by simp [h])
    have h0' : 0 ∉ bs := fun h => h0 (List.mem_cons_of_mem _ h)
    cases s with
    | nil =>
      constructor
      · intro h
        simp only [caseEq, peek_nil, Bool.and_eq_true, decide_eq_true_eq, lower_eq] at h
        have := (low_zero b).mp (by rw [← h.1]; rfl)
        exact absurd this hb
      · rintro ⟨a, t, h1, h2⟩
        have : a = [] := by cases a <;> simp_all
        subst this
        simp [SameName] at h2
    | cons c cs =>
      simp only [caseEq, peek_zero_cons, Bool.and_eq_true, decide_eq_true_eq, lower_eq, List.drop_succ_cons, List.drop_zero]
      rw [ih cs h0']
      constructor
      · rintro ⟨h1, a, t, rfl, h2⟩
        exact ⟨c :: a, t, rfl, by simp only [SameName, List.map_cons, h1, show a.map low = bs.map low from h2]⟩
      · rintro ⟨a, t, h1, h2⟩
        cases a with
        | nil => simp [SameName] at h2
        | cons x a =>
          simp only [List.cons_append, List.cons.injEq] at h1
          obtain ⟨rfl, rfl⟩ := h1
          simp only [SameName, List.map_cons, List.cons.injEq] at h2
          exact ⟨h2.1, a, t, rfl, h2.2⟩

theorem Spec.SameName.length {a b : Bytes} (h : SameName a b) : a.length = b.length := by
  have := congrArg List.length h
  simpa using this

/-! ### the component's text -/

/-- what follows a component in the path -/
def tail : Option Bytes → Bytes
  | none => []
  | some r => c!"/" :: r

theorem peek_tail (o : Option Bytes) : peek (tail o) 0 = if o = none then 0 else c!"/" := by
  cases o <;> rfl

/-- a text without slash and NUL that starts the component's text lies inside the component -/
theorem inside {a t comp : Bytes} {o : Option Bytes} (h : comp ++ tail o = a ++ t) (ha : c!"/" ∉ a) : ∃ u, comp = a ++ u ∧ t = u ++ tail o := by
  rcases List.append_eq_append_iff.mp h with ⟨x, h1, h2⟩ | ⟨x, h1, h2⟩
  · cases x with
    | nil => exact ⟨[], by simpa using h1.symm, by simpa using h2.symm⟩
    | cons y ys =>
      exfalso
      cases o with
      | none => simp [tail] at h2
      | some r =>
        simp only [tail, List.cons_append, List.cons.injEq] at h2
        apply ha
        rw [h1, ← h2.1]
        simp
  · exact ⟨x, h1, h2⟩

theorem Spec.SameName.mem {a b : Bytes} {x : UInt8} (hx : ∀ c, low c = x ↔ c = x) (h : SameName a b) (ha : x ∈ a) : x ∈ b := by
  have : low x ∈ b.map low := by
    rw [← show a.map low = b.map low from h]
    exact List.mem_map_of_mem ha
  obtain ⟨y, hy, hy2⟩ := List.mem_map.mp this
  rw [(hx x).mpr rfl] at hy2
  rwa [(hx y).mp hy2] at hy

/-! ### HFS+ -/

theorem invisible_iff (v : Nat) : v ∈ ignored ↔ Invisible v := by
  unfold Invisible
  simp only [ignored, List.mem_cons, List.not_mem_nil, or_false]
  omega

theorem encode_ne (v : Nat) : encode v ≠ [] := by
  unfold encode
  split
  · simp
  · split
    · simp
    · split <;> simp

theorem iterate_encode {v : Nat} (h : Good v) (t : Bytes) : Utf8.iterate (encode v ++ t) = .ok ((encode v).length, v) := by
  refine ((Utf8.C48_iterate (encode v ++ t) (by simp [encode_ne])).1 _ _).mpr ⟨h.1, h.2, rfl, ?_⟩
  exact List.prefix_append _ _

theorem encode_inj {v w : Nat} (hv : Good v) (hw : Good w) {t u : Bytes} (h : encode v ++ t = encode w ++ u) : v = w ∧ t = u := by
  have h1 := iterate_encode hv t
  have h2 := iterate_encode hw u
  rw [h, h2] at h1
  injection h1 with h1
  injection h1 with _ h1
  subst h1
  exact ⟨rfl, List.append_cancel_left h⟩

/-- a text is empty, or starts with a code point, or has no next code point -/
theorem decode_cases (s : Bytes) : s = [] ∨ (∃ v t, Good v ∧ s = encode v ++ t) ∨
    (s ≠ [] ∧ Utf8.iterate s = .err (-1) ∧ ∀ v t, Good v → s ≠ encode v ++ t) := by
  by_cases h : s = []
  · exact .inl h
  have hh := Utf8.C48_iterate s h
  rcases hh.2 with ⟨n, v, h1⟩ | h1
  · obtain ⟨a, b, _, ⟨t, rfl⟩⟩ := (hh.1 n v).mp h1
    exact .inr (.inl ⟨v, t, ⟨a, b⟩, rfl⟩)
  · refine .inr (.inr ⟨h, h1, fun v t hv he => ?_⟩)
    rw [he, iterate_encode hv t] at h1
    simp at h1

/-- `next_hfs_char` with enough fuel -/
def N (s : Bytes) : Int × Bytes := nextHfs (s.length + 1) s

theorem nextHfs_fuel (m : Nat) : ∀ (n : Nat) (s : Bytes), s.length < m → s.length < n → nextHfs m s = nextHfs n s := by
  induction m with
  | zero => intro n s h; omega
  | succ m ih =>
    intro n s hm hn
    obtain ⟨n, rfl⟩ : ∃ k, n = k + 1 := ⟨n - 1, by omega⟩
    unfold nextHfs
    by_cases hs : s = []
    · rw [if_pos hs, if_pos hs]
    rw [if_neg hs, if_neg hs]
    rcases decode_cases s with h | ⟨v, t, hv, rfl⟩ | ⟨_, h, _⟩
    · exact absurd h hs
    · rw [iterate_encode hv t]
      have : 0 < (encode v).length := List.length_pos_iff.mpr (encode_ne v)
      simp only [List.drop_left, List.length_append] at hm hn ⊢
      rw [ih n t (by omega) (by omega)]
    · rw [h]

theorem N_nil : N [] = (0, []) := rfl
theorem N_encode {v : Nat} (h : Good v) (t : Bytes) :
    N (encode v ++ t) = if Invisible v then N t else ((lowByte v).toNat, t) := by
  unfold N
  rw [nextHfs]
  have : 0 < (encode v).length := List.length_pos_iff.mpr (encode_ne v)
  rw [if_neg (by simp [encode_ne]), iterate_encode h t]
  simp only [List.drop_left, invisible_iff, lower_eq, List.length_append]
  rw [nextHfs_fuel _ (t.length + 1) t (by omega) (by omega)]
  rfl
theorem N_bad {s : Bytes} (h : s ≠ []) (h2 : Utf8.iterate s = .err (-1)) : N s = (-1, s) := by
  unfold N
  rw [nextHfs, if_neg h, h2]

/-- the outcome of the comparison with the needle and the end check -/
def found (needle s : Bytes) : Prop := ∃ r, hfsNeedle needle s = some r ∧ (N r).1 = 0

theorem found_nil (s : Bytes) : found [] s ↔ (N s).1 = 0 := by
  unfold found
  simp [hfsNeedle]
theorem found_cons (c : UInt8) (n s : Bytes) : found (c :: n) s ↔ (N s).1 = c.toNat ∧ found n (N s).2 := by
  unfold found
  rw [show hfsNeedle (c :: n) s = if (N s).1 ≠ c.toNat then none else hfsNeedle n (N s).2 from rfl]
  by_cases h : (N s).1 = c.toNat
  · rw [if_neg (by simp [h])]; simp [h]
  · rw [if_pos h]; simp [h]

theorem found_iff (needle s : Bytes) (h0 : 0 ∉ needle) : found needle s ↔ HfsLike s needle := by
  generalize hn : s.length = n
  induction n using Nat.strongRecOn generalizing s needle with
  | ind n ih =>
    subst hn
    rcases decode_cases s with rfl | ⟨v, t, hv, rfl⟩ | ⟨h1, h2, h3⟩
    · -- empty
      cases needle with
      | nil =>
        rw [found_nil]
        exact ⟨fun _ => ⟨[], [], by simp, by simp, by simp, .inl rfl⟩, fun _ => rfl⟩
      | cons c cs =>
        rw [found_cons]
        constructor
        · rintro ⟨h, _⟩
          exfalso
          apply h0
          have : c.toNat = 0 := by
            rw [N_nil] at h
            dsimp only at h
            omega
          have : c = 0 := UInt8.toNat_inj.mp this
          simp [this]
        · rintro ⟨vs, rest, _, h2, h3, _⟩
          exfalso
          have := List.append_eq_nil_iff.mp h2.symm
          cases vs with
          | nil => simp at h3
          | cons w ws => simp [encode_ne] at this
    · -- a code point
      have hl : t.length < (encode v ++ t).length := by
        have : 0 < (encode v).length := List.length_pos_iff.mpr (encode_ne v)
        simp; omega
      have hN := N_encode hv t
      by_cases hi : Invisible v
      · rw [if_pos hi] at hN
        have key : found needle (encode v ++ t) ↔ found needle t := by
          cases needle with
          | nil => rw [found_nil, found_nil, hN]
          | cons c cs => rw [found_cons, found_cons, hN]
        rw [key, ih _ hl needle t h0 rfl]
        constructor
        · rintro ⟨vs, rest, a, b, c, d⟩
          refine ⟨v :: vs, rest, ?_, by simp [b], ?_, d⟩
          · intro x hx
            rcases List.mem_cons.mp hx with rfl | hx
            · exact hv
            · exact a x hx
          · rw [List.filter_cons_of_neg (by simp [hi])]; exact c
        · rintro ⟨vs, rest, a, b, c, d⟩
          cases vs with
          | nil =>
            simp only [List.flatMap_nil, List.nil_append] at b
            rcases d with rfl | ⟨w, u, hw, hw2, _, hw4⟩
            · simp [encode_ne] at b
            · rw [hw4] at b
              have := (encode_inj hv hw b).1
              subst this
              exact absurd hi hw2
          | cons w ws =>
            simp only [List.flatMap_cons, List.append_assoc] at b
            obtain ⟨rfl, b'⟩ := encode_inj hv (a w (by simp)) b
            replace b := b'
            rw [List.filter_cons_of_neg (by simp [hi])] at c
            exact ⟨ws, rest, fun x hx => a x (List.mem_cons_of_mem _ hx), b, c, d⟩
      · rw [if_neg hi] at hN
        cases needle with
        | nil =>
          rw [found_nil, hN]
          constructor
          · intro h
            have : lowByte v = 0 := by
              apply UInt8.toNat_inj.mp
              dsimp only at h
              rw [UInt8.toNat_zero]
              omega
            exact ⟨[], encode v ++ t, by simp, by simp, by simp, .inr ⟨v, t, hv, hi, this, rfl⟩⟩
          · rintro ⟨vs, rest, a, b, c, d⟩
            cases vs with
            | nil =>
              simp only [List.flatMap_nil, List.nil_append] at b
              rcases d with rfl | ⟨w, u, hw, hw2, hw3, hw4⟩
              · simp [encode_ne] at b
              · rw [hw4] at b
                have := (encode_inj hv hw b).1
                subst this
                simp [hw3]
            | cons w ws =>
              simp only [List.flatMap_cons, List.append_assoc] at b
              obtain ⟨rfl, b'⟩ := encode_inj hv (a w (by simp)) b
              replace b := b'
              rw [List.filter_cons_of_pos (by simp [hi])] at c
              simp at c
        | cons c cs =>
          rw [found_cons, hN]
          dsimp only
          rw [ih _ hl cs t (fun h => h0 (List.mem_cons_of_mem _ h)) rfl]
          constructor
          · rintro ⟨h, vs, rest, a, b, d, e⟩
            have hc : lowByte v = c := by
              apply UInt8.toNat_inj.mp
              exact_mod_cast h
            refine ⟨v :: vs, rest, ?_, by simp [b], ?_, e⟩
            · intro x hx
              rcases List.mem_cons.mp hx with rfl | hx
              · exact hv
              · exact a x hx
            · rw [List.filter_cons_of_pos (by simp [hi]), List.map_cons, hc, d]
          · rintro ⟨vs, rest, a, b, d, e⟩
            cases vs with
            | nil => simp at d
            | cons w ws =>
              simp only [List.flatMap_cons, List.append_assoc] at b
              obtain ⟨rfl, b'⟩ := encode_inj hv (a w (by simp)) b
              replace b := b'
              rw [List.filter_cons_of_pos (by simp [hi]), List.map_cons, List.cons.injEq] at d
              exact ⟨by rw [d.1], ws, rest, fun x hx => a x (List.mem_cons_of_mem _ hx), b, d.2, e⟩
    · -- nothing decodes
      have hN := N_bad h1 h2
      constructor
      · intro h
        cases needle with
        | nil => rw [found_nil, hN] at h; simp at h
        | cons c cs =>
          rw [found_cons, hN] at h
          have := h.1
          dsimp only at this
          omega
      · rintro ⟨vs, rest, a, b, c, d⟩
        cases vs with
        | nil =>
          simp only [List.flatMap_nil, List.nil_append] at b
          rcases d with rfl | ⟨w, u, hw, _, _, hw4⟩
          · exact absurd b h1
          · exact absurd (b.trans hw4) (h3 w u hw)
        | cons w ws =>
          simp only [List.flatMap_cons, List.append_assoc] at b
          exact absurd b (h3 w _ (a w (by simp)))

theorem validHfs_iff (comp needle : Bytes) (h0 : 0 ∉ needle) : validHfs comp needle = false ↔ HfsLike comp (c!"." :: needle) := by
  rw [← found_iff (c!"." :: needle) comp (by simp [h0]), found_cons]
  unfold validHfs
  simp only [show ∀ s, nextHfs (s.length + 1) s = N s from fun _ => rfl]
  by_cases h : (N comp).1 = ((c!".").toNat : Int)
  · rw [if_neg (by simp [h])]
    unfold found
    cases hfsNeedle needle (N comp).2 with
    | none => simp
    | some r => simp [h]
  · rw [if_pos h]
    exact ⟨fun hh => by simp at hh, fun hh => absurd hh.1 h⟩

end Verif.PathValid
