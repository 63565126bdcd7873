import Verif.NetHost.Model
import Mathlib.Data.List.Basic
namespace Verif.NetHost

theorem ofNat_ne (k : Char) (hk : k.toNat < 97 := by decide) : ∀ c : Char, 65 ≤ c.toNat ∧ c.toNat ≤ 90 → Char.ofNat (c.toNat + 32) ≠ k := by
  intro c ⟨h1, h2⟩ he
  have h3 : (Char.ofNat (c.toNat + 32)).toNat = c.toNat + 32 := by
    have hv : (c.toNat + 32).isValidChar := Or.inl (by omega)
    rw [Char.ofNat, dif_pos hv]; rfl
  rw [he] at h3
  omega

theorem lower_eq_iff (k c : Char) (hk : k.toNat < 65) : lower c = k ↔ c = k := by
  unfold lower
  split
  · rename_i h
    constructor
    · intro he; exact absurd he (ofNat_ne k (by omega) c h)
    · intro he; subst he; omega
  · exact Iff.rfl

theorem lower_star (c : Char) : lower c = '*' ↔ c = '*' := lower_eq_iff _ _ (by decide)
theorem lower_dot (c : Char) : lower c = '.' ↔ c = '.' := lower_eq_iff _ _ (by decide)

theorem skipTo_sound (c : Char) : ∀ h h', skipTo c h = some h' → ∃ l, h = l ++ h' ∧ Label l := by
  intro h
  induction h with
  | nil => intro h' e; simp [skipTo] at e
  | cons x xs ih =>
    intro h' e
    simp only [skipTo] at e
    split at e
    · cases e; exact ⟨[], rfl, by simp [Label]⟩
    · split at e
      · cases e; exact ⟨[], rfl, by simp [Label]⟩
      · rename_i hd
        obtain ⟨l, hl, hL⟩ := ih _ e
        refine ⟨x :: l, by simp [hl], ?_⟩
        simp only [Label, List.mem_cons, not_or]
        exact ⟨fun e => hd ((lower_dot x).2 e.symm), hL⟩

theorem mc_last (p : Char) (hp : lower p = '*') (h : Str) : matchesCert [p] h = true := by
  unfold matchesCert; simp [hp]
theorem mc_star (p c : Char) (ps h : Str) (hp : lower p = '*') :
    matchesCert (p :: c :: ps) h = (match skipTo c h with | none => false | some h => matchesCert (c :: ps) h) := by
  conv => lhs; unfold matchesCert
  simp only [hp, if_true]
  rfl
theorem mc_nil (p : Char) (ps : Str) (hp : ¬ lower p = '*') : matchesCert (p :: ps) [] = false := by
  unfold matchesCert; simp [hp]
theorem mc_char (p x : Char) (ps xs : Str) (hp : ¬ lower p = '*') :
    matchesCert (p :: ps) (x :: xs) = if lower p ≠ lower x then false else matchesCert ps xs := by
  conv => lhs; unfold matchesCert
  simp only [hp, if_false]

theorem matchesCert_sound : ∀ p h, matchesCert p h = true → Stands p h := by
  intro p
  induction p with
  | nil => intro h e; cases h with
    | nil => exact .nil
    | cons x xs => unfold matchesCert at e; simp at e
  | cons p ps ih =>
    intro h e
    by_cases hs : lower p = '*'
    · have hs' := hs
      rw [lower_star] at hs
      subst hs
      cases ps with
      | nil => exact .last h
      | cons c ps' =>
        rw [mc_star _ _ _ _ hs'] at e
        cases hk : skipTo c h with
        | none => rw [hk] at e; simp at e
        | some h' =>
          rw [hk] at e
          obtain ⟨l, hl, hL⟩ := skipTo_sound c h h' hk
          rw [hl]
          exact .star l _ h' hL (by simp) (ih _ e)
    · cases h with
      | nil => rw [mc_nil _ _ hs] at e; simp at e
      | cons x xs =>
        rw [mc_char _ _ _ _ hs] at e
        split at e
        · simp at e
        · rename_i hne
          exact .char p x ps xs (fun h => hs ((lower_star p).2 h)) (not_not.1 hne) (ih _ e)

theorem matchesCert_exact (p : Str) (hp : '*' ∉ p) : ∀ h, matchesCert p h = true ↔ SameName p h := by
  induction p with
  | nil => intro h; cases h <;> simp [matchesCert, SameName]
  | cons p ps ih =>
    intro h
    simp only [List.mem_cons, not_or] at hp
    have hs : ¬ lower p = '*' := fun e => hp.1 ((lower_star p).1 e).symm
    cases h with
    | nil => simp [mc_nil _ _ hs, SameName]
    | cons x xs =>
      have := ih hp.2 xs
      rw [mc_char _ _ _ _ hs]
      simp only [SameName, List.map_cons, List.cons.injEq] at this ⊢
      by_cases hx : lower p = lower x <;> simp [hx, this]

theorem skipTo_label (l e : Str) (hl : Label l) : skipTo '.' (l ++ '.' :: e) = some ('.' :: e) := by
  induction l with
  | nil => simp [skipTo, show lower '.' = '.' by decide]
  | cons x xs ih =>
    simp only [Label, List.mem_cons, not_or] at hl
    have : ¬ lower x = '.' := fun e => hl.1 ((lower_dot x).1 e).symm
    simp only [List.cons_append, skipTo, this, if_false]
    exact ih hl.2

theorem matchesCert_wildcard (d : Str) (hd : '*' ∉ d) (h : Str) :
    matchesCert ('*' :: '.' :: d) h = true ↔ ∃ l e, Label l ∧ h = l ++ '.' :: e ∧ SameName d e := by
  have hex := matchesCert_exact ('.' :: d) (by simp [hd])
  constructor
  · intro e
    rw [mc_star _ _ _ _ (by decide)] at e
    cases hk : skipTo '.' h with
    | none => rw [hk] at e; simp at e
    | some h' =>
      rw [hk] at e
      obtain ⟨l, hl, hL⟩ := skipTo_sound '.' h h' hk
      have e' := (hex h').1 e
      cases h' with
      | nil => simp [SameName] at e'
      | cons x xs =>
        simp only [SameName, List.map_cons, List.cons.injEq, show lower '.' = '.' by decide] at e'
        have hx := (lower_dot x).1 e'.1.symm
        subst hx
        exact ⟨l, xs, hL, hl, e'.2⟩
  · rintro ⟨l, e, hL, rfl, hs⟩
    have h2 : matchesCert ('.' :: d) ('.' :: e) = true := (hex _).2 (by simp only [SameName, List.map_cons] at *; rw [hs])
    rw [mc_star _ _ _ _ (by decide), skipTo_label l e hL]
    exact h2

theorem lower_count (p c : Char) (h : lower p = lower c) : (p = '.' ↔ c = '.') := by
  rw [← lower_dot p, ← lower_dot c, h]

theorem Stands.dots {p h : Str} (s : Stands p h) (hp : ¬ ['*'] <:+ p) : h.count '.' = p.count '.' := by
  induction s with
  | nil => rfl
  | last h => exact absurd (List.suffix_refl _) hp
  | star l ps h hl hps s ih =>
    rw [List.count_append, List.count_cons, ih (fun hx => hp (hx.trans (List.suffix_cons _ _))), List.count_eq_zero.2 hl]
    simp
  | char p c ps h hpp he s ih =>
    rw [List.count_cons, List.count_cons, ih (fun hx => hp (hx.trans (List.suffix_cons _ _)))]
    have := lower_count p c he
    by_cases hc : c = '.' <;> simp [hc, this]

theorem Stands.same {p h : Str} (s : Stands p h) (hp : '*' ∉ p) : SameName p h := by
  induction s with
  | nil => rfl
  | last h => simp at hp
  | star l ps h hl hps s ih => simp at hp
  | char p c ps h hpp he s ih =>
    simp only [List.mem_cons, not_or] at hp
    have := ih hp.2
    simp only [SameName, List.map_cons] at this ⊢
    rw [he, this]

theorem Stands.tail {p h : Str} (s : Stands p h) : ∀ a d, p = a ++ d → '*' ∉ d → ∃ x e, h = x ++ e ∧ SameName d e := by
  induction s with
  | nil => intro a d e _; have : d = [] := by cases a <;> simp_all
           subst this; exact ⟨[], [], rfl, rfl⟩
  | last h =>
    intro a d e hd
    have : d = [] := by
      cases a with
      | nil => rw [List.nil_append] at e; subst e; simp at hd
      | cons x xs => simp only [List.cons_append, List.cons.injEq] at e; have := e.2; simp_all
    subst this
    exact ⟨h, [], by simp, rfl⟩
  | star l ps h hl hps s ih =>
    intro a d e hd
    cases a with
    | nil => rw [List.nil_append] at e; subst e; simp at hd
    | cons y ys =>
      simp only [List.cons_append, List.cons.injEq] at e
      obtain ⟨x, e', he, hs⟩ := ih ys d e.2 hd
      exact ⟨l ++ x, e', by simp [he], hs⟩
  | char p c ps h hpp he s ih =>
    intro a d e hd
    cases a with
    | nil =>
      rw [List.nil_append] at e; subst e
      exact ⟨[], c :: h, rfl, (Stands.char p c ps h hpp he s).same hd⟩
    | cons y ys =>
      simp only [List.cons_append, List.cons.injEq] at e
      obtain ⟨x, e', he', hs⟩ := ih ys d e.2 hd
      exact ⟨c :: x, e', by simp [he'], hs⟩

end Verif.NetHost
