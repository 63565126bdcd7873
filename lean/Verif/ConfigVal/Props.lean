import Verif.ConfigVal.Model
import Verif.ConfigVal.Spec
import Verif.Strtol.Props
/-! # C35: numbers and truth values in configuration -/
namespace Verif.ConfigVal
open Strtol Strtol.Spec ConfigVal.Spec

theorem times_ok {n v : Int} : times1024 n = .ok v ↔ v = n * 1024 ∧ Fits64 v := by
  unfold times1024 Fits64
  by_cases h : -(2 ^ 63) ≤ n * 1024 ∧ n * 1024 < 2 ^ 63
  · rw [if_pos h]
    constructor
    · intro e; have := Res.ok.inj e; subst this; exact ⟨rfl, h⟩
    · rintro ⟨rfl, _⟩; rfl
  · rw [if_neg h]
    constructor
    · intro e; cases e
    · rintro ⟨rfl, hh⟩; exact absurd hh h

theorem times_not_err {n : Int} {e : Int} : times1024 n ≠ .err e := by
  unfold times1024
  split <;> simp

theorem bind_times {x : Res Int} {v : Int} : (x >>= times1024) = .ok v ↔ ∃ u, x = .ok u ∧ v = u * 1024 ∧ Fits64 v := by
  cases x with
  | ok u => rw [Res.bind_ok, times_ok]; simp
  | err e => constructor
             · intro h; cases h
             · rintro ⟨u, h, _⟩; cases h
  | ub => constructor
          · intro h; cases h
          · rintro ⟨u, h, _⟩; cases h

theorem bind_not_err {x : Res Int} {e : Int} (hx : ∀ e, x ≠ .err e) : (x >>= times1024) ≠ .err e := by
  cases x with
  | ok u => rw [Res.bind_ok]; exact times_not_err
  | err e => exact absurd rfl (hx e)
  | ub => intro h; cases h

/-- the factor of a suffix character -/
def Factor (c : UInt8) (f : Int) : Prop := Suffix [c] f

theorem scale_spec (c : UInt8) (n : Int) : (scale c n = none ∧ ∀ f, ¬ Factor c f) ∨
    ∃ f x, Factor c f ∧ 1024 ≤ f ∧ scale c n = some x ∧ (∀ e, x ≠ .err e) ∧ ∀ v, x = .ok v ↔ v = n * f ∧ Fits64 v := by
  unfold scale
  by_cases h1 : c = c!"g" ∨ c = c!"G"
  · rw [if_pos h1]
    refine .inr ⟨1024 * 1024 * 1024, _, ?_, by decide, rfl, ?_, ?_⟩
    · rcases h1 with rfl | rfl
      · exact .g
      · exact .G
    · intro e
      exact bind_not_err fun e => bind_not_err fun e => times_not_err
    · intro v
      simp only [bind_times, times_ok, Fits64]
      constructor
      · rintro ⟨u, ⟨w, ⟨a, _⟩, b, _⟩, c, d⟩; subst a; subst b; exact ⟨by rw [c]; omega, d⟩
      · rintro ⟨a, b⟩
        exact ⟨n * 1024 * 1024, ⟨n * 1024, ⟨rfl, by omega⟩, rfl, by omega⟩, by omega, b⟩
  rw [if_neg h1]
  by_cases h2 : c = c!"m" ∨ c = c!"M"
  · rw [if_pos h2]
    refine .inr ⟨1024 * 1024, _, ?_, by decide, rfl, ?_, ?_⟩
    · rcases h2 with rfl | rfl
      · exact .m
      · exact .M
    · intro e
      exact bind_not_err fun e => times_not_err
    · intro v
      simp only [bind_times, times_ok, Fits64]
      constructor
      · rintro ⟨w, ⟨a, _⟩, b, d⟩; subst a; exact ⟨by rw [b]; omega, d⟩
      · rintro ⟨a, b⟩
        exact ⟨n * 1024, ⟨rfl, by omega⟩, by omega, b⟩
  rw [if_neg h2]
  by_cases h3 : c = c!"k" ∨ c = c!"K"
  · rw [if_pos h3]
    refine .inr ⟨1024, _, ?_, by decide, rfl, ?_, ?_⟩
    · rcases h3 with rfl | rfl
      · exact .k
      · exact .K
    · intro e
      exact times_not_err
    · intro v
      rw [times_ok]
  rw [if_neg h3]
  refine .inl ⟨rfl, ?_⟩
  intro f hf
  unfold Factor at hf
  generalize hr : [c] = r at hf
  cases hf with
  | none => cases hr
  | k => exact h3 (.inl (List.head_eq_of_cons_eq hr))
  | K => exact h3 (.inr (List.head_eq_of_cons_eq hr))
  | m => exact h2 (.inl (List.head_eq_of_cons_eq hr))
  | M => exact h2 (.inr (List.head_eq_of_cons_eq hr))
  | g => exact h1 (.inl (List.head_eq_of_cons_eq hr))
  | G => exact h1 (.inr (List.head_eq_of_cons_eq hr))

theorem suffix_cases {r : Bytes} {f : Int} (h : Suffix r f) : (r = [] ∧ f = 1) ∨ ∃ c, r = [c] ∧ Factor c f := by
  cases h with
  | none => exact .inl ⟨rfl, rfl⟩
  | k => exact .inr ⟨_, rfl, .k⟩
  | K => exact .inr ⟨_, rfl, .K⟩
  | m => exact .inr ⟨_, rfl, .m⟩
  | M => exact .inr ⟨_, rfl, .M⟩
  | g => exact .inr ⟨_, rfl, .g⟩
  | G => exact .inr ⟨_, rfl, .G⟩

theorem suffix_fun {r : Bytes} {f g : Int} (h : Suffix r f) (h' : Suffix r g) : f = g := by
  cases h <;> cases h' <;> rfl

theorem suffix_pos {r : Bytes} {f : Int} (h : Suffix r f) : 1 ≤ f := by cases h <;> decide

/-- the value with its suffix, when it fits -/
theorem withSuffix_ok {n v : Int} {rest : Bytes} (hn : Fits64 n) : withSuffix n rest = .ok v ↔ ∃ f, Suffix rest f ∧ v = n * f ∧ Fits64 v := by
  cases rest with
  | nil =>
    unfold withSuffix
    constructor
    · intro e; have := Res.ok.inj e; subst this; exact ⟨1, .none, by omega, hn⟩
    · rintro ⟨f, hf, hv, _⟩
      have := suffix_fun hf .none
      subst this
      rw [hv, Int.mul_one]
  | cons c more =>
    simp only [withSuffix]
    rcases scale_spec c n with ⟨e, hno⟩ | ⟨f, x, hf, _, e, hne, hx⟩
    · rw [e]
      constructor
      · intro h; cases h
      · rintro ⟨f, hf, _⟩
        rcases suffix_cases hf with ⟨hc, _⟩ | ⟨c', hc, hf'⟩
        · cases hc
        · obtain ⟨rfl, _⟩ := List.cons.inj hc; exact absurd hf' (hno f)
    · rw [e]
      have key : (∃ f', Suffix (c :: more) f' ∧ v = n * f' ∧ Fits64 v) ↔ more = [] ∧ x = .ok v := by
        rw [hx]
        constructor
        · rintro ⟨f', hf', hv, h64⟩
          rcases suffix_cases hf' with ⟨hc, _⟩ | ⟨c', hc, hf''⟩
          · cases hc
          · obtain ⟨rfl, rfl⟩ := List.cons.inj hc
            exact ⟨rfl, by rw [suffix_fun hf hf'']; exact hv, h64⟩
        · rintro ⟨rfl, hv, h64⟩
          exact ⟨f, hf, hv, h64⟩
      rw [key]
      cases x with
      | ok u =>
        dsimp only
        by_cases hm : more = []
        · rw [if_neg (by simpa using hm)]; simp [hm]
        · rw [if_pos hm]; simp [hm]
      | err e' => exact absurd rfl (hne e')
      | ub => simp

theorem withSuffix_ub {n : Int} {rest : Bytes} : withSuffix n rest = .ub ↔ ∃ c more f, rest = c :: more ∧ Suffix [c] f ∧ ¬ Fits64 (n * f) := by
  cases rest with
  | nil => unfold withSuffix; simp
  | cons c more =>
    simp only [withSuffix]
    rcases scale_spec c n with ⟨e, hno⟩ | ⟨f, x, hf, _, e, hne, hx⟩
    · rw [e]
      constructor
      · intro h; cases h
      · rintro ⟨c', m', f, hc, hf, _⟩
        obtain ⟨rfl, rfl⟩ := List.cons.inj hc
        exact absurd hf (hno f)
    · rw [e]
      have key : (∃ c' m' f', c :: more = c' :: m' ∧ Suffix [c'] f' ∧ ¬ Fits64 (n * f')) ↔ ¬ Fits64 (n * f) := by
        constructor
        · rintro ⟨c', m', f', hc, hf', hn⟩
          obtain ⟨rfl, rfl⟩ := List.cons.inj hc
          rw [suffix_fun hf hf']; exact hn
        · intro h; exact ⟨c, more, f, rfl, hf, h⟩
      rw [key]
      cases x with
      | ok u =>
        have := (hx u).1 rfl
        dsimp only
        by_cases hm : more = []
        · rw [if_neg (by simpa using hm)]
          simp only [reduceCtorEq, false_iff]
          intro hc; apply hc
          rw [← this.1]; exact this.2
        · rw [if_pos hm]
          simp only [reduceCtorEq, false_iff]
          intro hc; apply hc
          rw [← this.1]; exact this.2
      | err e' => exact absurd rfl (hne e')
      | ub =>
        simp only [true_iff]
        intro h
        have := (hx (n * f)).2 ⟨rfl, h⟩
        cases this

theorem strntol_not_ub (s : Bytes) : strntol64 s 0 ≠ .ub := by
  intro h
  by_cases hh : ∃ v rest, Number s 0 v rest ∧ -(2 ^ 63) ≤ v ∧ v < 2 ^ 63
  · obtain ⟨v, r, hh⟩ := hh
    rw [(C46_exact64 s 0 v r).2 hh] at h; cases h
  · rw [C46_fails s 0 hh] at h; cases h

/-- **C35 (64 bits).** A value is parsed as `v` exactly when it is a number with an optional suffix k, m or g (of either case), nothing behind it, whose value
is `v`, and `v` fits in 64 bits. -/
theorem C35_int64 (s : Bytes) (v : Int) : parseInt64 (some s) = .ok v ↔ Scaled s v ∧ Fits64 v := by
  simp only [parseInt64]
  constructor
  · intro h
    cases e : strntol64 s 0 with
    | ok r =>
      rw [e] at h
      obtain ⟨hn, hf⟩ := (C46_exact64 s 0 r.1 r.2).1 e
      obtain ⟨f, h1, h2, h3⟩ := (withSuffix_ok hf).1 h
      exact ⟨⟨r.1, r.2, f, hn, h1, h2⟩, h3⟩
    | err e' => rw [e] at h; cases h
    | ub => rw [e] at h; cases h
  · rintro ⟨⟨n, rest, f, hn, hs, hv⟩, h64⟩
    have hp := suffix_pos hs
    have hn64 : Fits64 n := by
      unfold Fits64 at h64 ⊢
      rcases suffix_cases hs with ⟨_, rfl⟩ | ⟨c, _, hf⟩
      · omega
      · generalize [c] = r at hf
        cases hf <;> omega
    rw [(C46_exact64 s 0 n rest).2 ⟨hn, hn64⟩]
    exact (withSuffix_ok hn64).2 ⟨f, hs, hv, h64⟩

/-- **C35 (failure).** Otherwise the call fails, with one exception: FINDING a number with a suffix whose product overflows 64 bits is not refused, its
multiplication is a signed overflow (undefined behaviour; in practice a wrong value is returned). -/
theorem C35_int64_overflow (s : Bytes) : (parseInt64 (some s) = .ub ↔ ∃ n c more f, Number s 0 n (c :: more) ∧ Fits64 n ∧ Suffix [c] f ∧ ¬ Fits64 (n * f)) ∧
    (parseInt64 (some s) ≠ .ub → (∀ v, ¬ (Scaled s v ∧ Fits64 v)) → parseInt64 (some s) = .err (-1)) := by
  constructor
  · simp only [parseInt64]
    constructor
    · intro h
      cases e : strntol64 s 0 with
      | ok r =>
        rw [e] at h
        obtain ⟨hn, hf⟩ := (C46_exact64 s 0 r.1 r.2).1 e
        obtain ⟨c, more, f, h1, h2, h3⟩ := withSuffix_ub.1 h
        rw [h1] at hn
        exact ⟨r.1, c, more, f, hn, hf, h2, h3⟩
      | err e' => rw [e] at h; cases h
      | ub => exact absurd e (strntol_not_ub s)
    · rintro ⟨n, c, more, f, hn, hf, hs, hv⟩
      rw [(C46_exact64 s 0 n (c :: more)).2 ⟨hn, hf⟩]
      exact withSuffix_ub.2 ⟨c, more, f, rfl, hs, hv⟩
  · intro hu hno
    cases e : parseInt64 (some s) with
    | ok v => exact absurd ((C35_int64 s v).1 e) (hno v)
    | ub => exact absurd e hu
    | err e' =>
      simp only [parseInt64] at e
      cases e2 : strntol64 s 0 with
      | ok r =>
        rw [e2] at e
        dsimp only at e
        cases hr : r.2 with
        | nil => rw [hr] at e; cases e
        | cons c more =>
          rw [hr] at e
          simp only [withSuffix] at e
          rcases scale_spec c r.1 with ⟨h1, _⟩ | ⟨f, x, _, _, h1, hne, _⟩
          · rw [h1] at e; exact e.symm
          · rw [h1] at e
            cases x with
            | ok u =>
              dsimp only at e
              by_cases hm : more ≠ []
              · rw [if_pos hm] at e; exact e.symm
              · rw [if_neg hm] at e; cases e
            | err e3 => exact absurd rfl (hne e3)
            | ub => cases e
      | err e' => rw [e2] at e; exact e.symm
      | ub => exact absurd e2 (strntol_not_ub s)

theorem truncate_iff (n : Int) : truncate32 n = n ↔ Fits32 n := by
  unfold truncate32 Fits32
  omega

/-- **C35 (32 bits).** `git_config_parse_int32` accepts exactly the same texts, when the value fits in 32 bits. -/
theorem C35_int32 (s : Bytes) (v : Int) : parseInt32 (some s) = .ok v ↔ Scaled s v ∧ Fits32 v := by
  have h32 : ∀ n, Fits32 n → Fits64 n := by intro n h; unfold Fits32 at h; unfold Fits64; omega
  unfold parseInt32
  cases e : parseInt64 (some s) with
  | ok n =>
    dsimp only
    have hn := (C35_int64 s n).1 e
    by_cases ht : truncate32 n = n
    · rw [if_neg (by simpa using ht), ht]
      constructor
      · intro h; have := Res.ok.inj h; subst this; exact ⟨hn.1, (truncate_iff n).1 ht⟩
      · rintro ⟨a, b⟩
        rw [(C35_int64 s v).2 ⟨a, h32 v b⟩] at e
        exact e.symm
    · rw [if_pos ht]
      constructor
      · intro h; cases h
      · rintro ⟨a, b⟩
        rw [(C35_int64 s v).2 ⟨a, h32 v b⟩] at e
        have := Res.ok.inj e
        subst this
        exact absurd ((truncate_iff v).2 b) ht
  | err e' =>
    constructor
    · intro h; cases h
    · rintro ⟨a, b⟩
      rw [(C35_int64 s v).2 ⟨a, h32 v b⟩] at e
      cases e
  | ub =>
    constructor
    · intro h; cases h
    · rintro ⟨a, b⟩
      rw [(C35_int64 s v).2 ⟨a, h32 v b⟩] at e
      cases e

/-- A missing value is no number. -/
theorem C35_missing : parseInt64 none = .err (-1) ∧ parseInt32 none = .err (-1) := ⟨rfl, rfl⟩

/-! ### truth values -/

theorem lower_fact (x y : UInt8) (hy : c!"a" ≤ y ∧ y ≤ c!"z") : toLower x = y ↔ x = y ∨ x + 32 = y := by
  have f1 : ∀ x : UInt8, c!"A" ≤ x ∧ x ≤ c!"Z" → ¬ (c!"a" ≤ x ∧ x ≤ c!"z") := by decide +kernel
  have f2 : ∀ x : UInt8, c!"a" ≤ x + 32 ∧ x + 32 ≤ c!"z" → c!"A" ≤ x ∧ x ≤ c!"Z" := by decide +kernel
  unfold toLower
  by_cases h : c!"A" ≤ x ∧ x ≤ c!"Z"
  · rw [if_pos h]
    constructor
    · exact .inr
    · rintro (rfl | e)
      · exact absurd hy (f1 x h)
      · exact e
  · rw [if_neg h]
    constructor
    · exact .inl
    · rintro (e | rfl)
      · exact e
      · exact absurd (f2 x hy) h

theorem caseEq_word (w : Bytes) (hw : ∀ y ∈ w, c!"a" ≤ y ∧ y ≤ c!"z") : ∀ v, caseEq v w = true ↔ Word v w := by
  have hlw : w.map toLower = w := by
    conv => rhs; rw [← List.map_id w]
    apply List.map_congr_left
    intro y hy
    exact (lower_fact y y (hw y hy)).2 (.inl rfl)
  intro v
  unfold caseEq
  rw [decide_eq_true_eq, hlw]
  unfold Word
  constructor
  · intro h
    refine ⟨by rw [← h, List.length_map], ?_⟩
    intro i x y hx hy
    have hy' := hw y (List.mem_of_getElem? hy)
    rw [← h, List.getElem?_map, hx] at hy
    rcases (lower_fact x y hy').1 (Option.some.inj hy) with e | e
    · exact .inl e
    · exact .inr ⟨hy'.1, hy'.2, e⟩
  · rintro ⟨hl, h⟩
    apply List.ext_getElem?
    intro i
    rw [List.getElem?_map]
    cases hx : v[i]? with
    | none =>
      have := List.getElem?_eq_none_iff.1 hx
      rw [List.getElem?_eq_none_iff.2 (by omega)]
      rfl
    | some x =>
      have hi : i < w.length := by rw [← hl]; exact (List.getElem?_eq_some_iff.1 hx).1
      have hy : w[i]? = some w[i] := List.getElem?_eq_getElem hi
      rw [hy]
      have hy' := hw w[i] (List.getElem_mem hi)
      simp only [Option.map_some, Option.some.injEq]
      rw [lower_fact x _ hy']
      rcases h i x _ hx hy with e | ⟨_, _, e⟩
      · exact .inl e
      · exact .inr e

theorem util_bool (v : Option Bytes) : (utilParseBool v = .ok true ↔ Yes v) ∧ (utilParseBool v = .ok false ↔ No v ∧ ¬ Yes v) ∧
    (utilParseBool v = .err (-1) ↔ ¬ Yes v ∧ ¬ No v) ∧ utilParseBool v ≠ .ub := by
  cases v with
  | none => simp [utilParseBool, Yes, No]
  | some v =>
    simp only [utilParseBool]
    have e1 : (caseEq v b!"true" = true ∨ caseEq v b!"yes" = true ∨ caseEq v b!"on" = true) ↔ Yes (some v) := by
      rw [caseEq_word b!"true" (by decide +kernel), caseEq_word b!"yes" (by decide +kernel), caseEq_word b!"on" (by decide +kernel)]
      exact Iff.rfl
    have e2 : (caseEq v b!"false" = true ∨ caseEq v b!"no" = true ∨ caseEq v b!"off" = true ∨ v = []) ↔ No (some v) := by
      rw [caseEq_word b!"false" (by decide +kernel), caseEq_word b!"no" (by decide +kernel), caseEq_word b!"off" (by decide +kernel)]
      exact Iff.rfl
    by_cases hy : Yes (some v)
    · rw [if_pos (e1.2 hy)]
      simp [hy]
    · rw [if_neg (fun h => hy (e1.1 h))]
      by_cases hn : No (some v)
      · rw [if_pos (e2.2 hn)]
        simp [hy, hn]
      · rw [if_neg (fun h => hn (e2.1 h))]
        simp [hy, hn]

theorem word_disjoint {v w w' : Bytes} (hl : w.length = w'.length → ∃ (i : Nat) (y y' : UInt8), w[i]? = some y ∧ w'[i]? = some y' ∧ y ≠ y' ∧ y + 32 ≠ y' ∧ y' + 32 ≠ y)
    (h : Word v w) (h' : Word v w') : False := by
  obtain ⟨i, y, y', a, b, c, d, e⟩ := hl (h.1.symm.trans h'.1)
  have hi : i < v.length := by rw [h.1]; exact (List.getElem?_eq_some_iff.1 a).1
  have hx : v[i]? = some v[i] := List.getElem?_eq_getElem hi
  rcases h.2 i _ y hx a with e1 | ⟨_, _, e1⟩ <;> rcases h'.2 i _ y' hx b with e2 | ⟨_, _, e2⟩
  · exact c (e1.symm.trans e2)
  · rw [e1] at e2; exact d e2
  · rw [e2] at e1; exact e e1
  · exact c (e1.symm.trans e2)

/-- No text means both. -/
theorem yes_no_disjoint (v : Option Bytes) : ¬ (Yes v ∧ No v) := by
  cases v with
  | none => exact fun h => h.2
  | some v =>
    rintro ⟨h | h | h, h' | h' | h' | rfl⟩
    · exact word_disjoint (fun hl => by cases hl) h h'
    · exact word_disjoint (fun hl => by cases hl) h h'
    · exact word_disjoint (fun hl => by cases hl) h h'
    · cases h.1
    · exact word_disjoint (fun hl => by cases hl) h h'
    · exact word_disjoint (fun hl => by cases hl) h h'
    · exact word_disjoint (fun _ => ⟨0, c!"y", c!"o", rfl, rfl, by decide, by decide, by decide⟩) h h'
    · cases h.1
    · exact word_disjoint (fun hl => by cases hl) h h'
    · exact word_disjoint (fun _ => ⟨0, c!"o", c!"n", rfl, rfl, by decide, by decide, by decide⟩) h h'
    · exact word_disjoint (fun hl => by cases hl) h h'
    · cases h.1

/-- **C35 (truth values).** A missing value and the words true, yes, on (in any case) are true; the empty value and false, no, off are false; another text is
accepted exactly when it is a 32-bit number, and then it is true unless the number is zero. -/
theorem C35_bool (v : Option Bytes) (b : Bool) : parseBool v = .ok b ↔
    (b = true ∧ Yes v) ∨ (b = false ∧ No v) ∨ (¬ Yes v ∧ ¬ No v ∧ ∃ s n, v = some s ∧ Scaled s n ∧ Fits32 n ∧ (b = true ↔ n ≠ 0)) := by
  obtain ⟨h1, h2, h3, h4⟩ := util_bool v
  unfold parseBool
  by_cases hy : Yes v
  · rw [h1.2 hy]
    have hn : ¬ No v := fun h => yes_no_disjoint v ⟨hy, h⟩
    simp [hy, hn, eq_comm]
  by_cases hn : No v
  · rw [h2.2 ⟨hn, hy⟩]
    simp [hy, hn, eq_comm]
  rw [h3.2 ⟨hy, hn⟩]
  simp only [hy, hn, and_false, false_or, not_false_eq_true, true_and]
  cases v with
  | none => exact absurd trivial hy
  | some s =>
    cases e : parseInt32 (some s) with
    | ok n =>
      have := (C35_int32 s n).1 e
      dsimp only
      constructor
      · intro h
        have := Res.ok.inj h
        subst this
        refine ⟨s, n, rfl, (C35_int32 s n).1 e |>.1, (C35_int32 s n).1 e |>.2, by simp⟩
      · rintro ⟨s', n', hs, h5, h6, h7⟩
        obtain rfl := Option.some.inj hs
        rw [(C35_int32 s n').2 ⟨h5, h6⟩] at e
        have := Res.ok.inj e
        subst this
        congr 1
        cases b <;> simp_all
    | err e' =>
      constructor
      · intro h; cases h
      · rintro ⟨s', n', hs, h5, h6, h7⟩
        obtain rfl := Option.some.inj hs
        rw [(C35_int32 s n').2 ⟨h5, h6⟩] at e; cases e
    | ub =>
      constructor
      · intro h; cases h
      · rintro ⟨s', n', hs, h5, h6, h7⟩
        obtain rfl := Option.some.inj hs
        rw [(C35_int32 s n').2 ⟨h5, h6⟩] at e; cases e

/-- the value means the mapping -/
def Matches (value : Option Bytes) (e : MapEntry) (v : Int) : Prop :=
  match e.type with
  | .false => parseBool value = .ok false ∧ v = e.value
  | .true => parseBool value = .ok true ∧ v = e.value
  | .int32 => parseInt32 value = .ok v
  | .string => v = e.value ∧ ∃ s, value = some s ∧ s.map toLower = e.str.map toLower

theorem mapOne_iff {e : MapEntry} {value : Option Bytes} (hb : parseBool value ≠ .ub) (hi : parseInt32 value ≠ .ub) (v : Int) :
    mapOne e value = .ok (some v) ↔ Matches value e v := by
  unfold mapOne Matches
  cases e with
  | mk t str val =>
    cases t with
    | false =>
      dsimp only
      cases h : parseBool value with
      | ok b => cases b <;> simp [eq_comm]
      | err e => simp
      | ub => exact absurd h hb
    | true =>
      dsimp only
      cases h : parseBool value with
      | ok b => cases b <;> simp [eq_comm]
      | err e => simp
      | ub => exact absurd h hb
    | int32 =>
      dsimp only
      cases h : parseInt32 value with
      | ok n => simp
      | err e => simp
      | ub => exact absurd h hi
    | string =>
      dsimp only
      cases value with
      | none => simp
      | some s =>
        simp only [caseEq, decide_eq_true_eq, Res.ok.injEq, Option.some.injEq, exists_eq_left']
        by_cases hc : s.map toLower = str.map toLower
        · rw [if_pos hc]; simp [hc, eq_comm]
        · rw [if_neg hc]; simp [hc]

theorem mapOne_none {e : MapEntry} {value : Option Bytes} (hb : parseBool value ≠ .ub) (hi : parseInt32 value ≠ .ub) :
    (∃ v, mapOne e value = .ok (some v)) ∨ mapOne e value = .ok none := by
  unfold mapOne
  cases e.type with
  | false =>
    dsimp only
    cases h : parseBool value with
    | ok b => cases b <;> simp
    | err e => simp
    | ub => exact absurd h hb
  | true =>
    dsimp only
    cases h : parseBool value with
    | ok b => cases b <;> simp
    | err e => simp
    | ub => exact absurd h hb
  | int32 =>
    dsimp only
    cases h : parseInt32 value with
    | ok n => simp
    | err e => simp
    | ub => exact absurd h hi
  | string =>
    dsimp only
    cases value with
    | none => simp
    | some s =>
      dsimp only
      split <;> simp

/-- **C35 (mapped values).** `git_config_lookup_map_value` gives the value of the first mapping that the text matches, and fails when none does. -/
theorem C35_map {maps : List MapEntry} {value : Option Bytes} (hb : parseBool value ≠ .ub) (hi : parseInt32 value ≠ .ub) (v : Int) :
    (lookupMapValue maps value = .ok v ↔ ∃ pre e post, maps = pre ++ e :: post ∧ Matches value e v ∧ ∀ e' ∈ pre, ∀ v', ¬ Matches value e' v') ∧
    (lookupMapValue maps value = .err (-1) ↔ ∀ e ∈ maps, ∀ v', ¬ Matches value e v') := by
  induction maps with
  | nil => simp [lookupMapValue]
  | cons e es ih =>
    unfold lookupMapValue
    rcases mapOne_none (e := e) hb hi with ⟨u, hu⟩ | hu
    · rw [hu]
      have hm := (mapOne_iff hb hi u).1 hu
      have huniq : ∀ v', Matches value e v' → v' = u := by
        intro v' h
        have := (mapOne_iff hb hi v').2 h
        rw [hu] at this
        exact (Option.some.inj (Res.ok.inj this)).symm
      constructor
      · constructor
        · intro h
          have := Res.ok.inj h
          subst this
          exact ⟨[], e, es, rfl, hm, by simp⟩
        · rintro ⟨pre, e', post, h1, h2, h3⟩
          cases pre with
          | nil =>
            obtain ⟨rfl, rfl⟩ := List.cons.inj h1
            rw [huniq v h2]
          | cons a pre =>
            obtain ⟨rfl, _⟩ := List.cons.inj h1
            exact absurd hm (h3 e (by simp) u)
      · simp only [reduceCtorEq, false_iff]
        intro h
        exact h e (by simp) u hm
    · rw [hu]
      have hno : ∀ v', ¬ Matches value e v' := by
        intro v' h
        have := (mapOne_iff hb hi v').2 h
        rw [hu] at this
        cases this
      dsimp only
      rw [ih.1, ih.2]
      constructor
      · constructor
        · rintro ⟨pre, e', post, rfl, h2, h3⟩
          refine ⟨e :: pre, e', post, rfl, h2, ?_⟩
          intro e'' he
          rcases List.mem_cons.1 he with rfl | he
          · exact hno
          · exact h3 e'' he
        · rintro ⟨pre, e', post, h1, h2, h3⟩
          cases pre with
          | nil =>
            obtain ⟨rfl, rfl⟩ := List.cons.inj h1
            exact absurd h2 (hno v)
          | cons a pre =>
            obtain ⟨rfl, rfl⟩ := List.cons.inj h1
            exact ⟨pre, e', post, rfl, h2, fun e'' he => h3 e'' (List.mem_cons_of_mem _ he)⟩
      · constructor
        · intro h e' he
          rcases List.mem_cons.1 he with rfl | he
          · exact hno
          · exact h e' he
        · intro h e' he
          exact h e' (List.mem_cons_of_mem _ he)

/-! ### examples -/

example : parseInt64 (some b!"12k") = .ok 12288 ∧ parseInt64 (some b!" -0x10M") = .ok (-16777216) ∧ parseInt64 (some b!"1g") = .ok 1073741824 ∧
    parseInt64 (some b!"12kb") = .err (-1) ∧ parseInt64 (some b!"12 k") = .err (-1) ∧ parseInt32 (some b!"2g") = .err (-1) ∧
    parseInt32 (some b!"-2g") = .ok (-2147483648) := by decide +kernel

/-- the overflow: eight exabytes times 1024 -/
example : parseInt64 (some b!"9223372036854775807k") = .ub ∧ parseBool (some b!"9223372036854775807k") = .ub := by decide +kernel

example : parseBool none = .ok true ∧ parseBool (some []) = .ok false ∧ parseBool (some b!"YeS") = .ok true ∧ parseBool (some b!"oFF") = .ok false ∧
    parseBool (some b!"0k") = .ok false ∧ parseBool (some b!"2") = .ok true ∧ parseBool (some b!"y") = .err (-1) := by decide +kernel

/-- the table of core.autocrlf: src/libgit2/config_cache.c:24-28 -/
example : lookupMapValue [⟨.false, [], 0⟩, ⟨.true, [], 1⟩, ⟨.string, b!"input", 2⟩] (some b!"Input") = .ok 2 ∧
    lookupMapValue [⟨.false, [], 0⟩, ⟨.true, [], 1⟩, ⟨.string, b!"input", 2⟩] (some b!"maybe") = .err (-1) := by decide +kernel

end Verif.ConfigVal
