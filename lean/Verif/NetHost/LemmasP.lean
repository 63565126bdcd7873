import Verif.NetHost.Model
import Mathlib.Data.List.Basic
namespace Verif.NetHost

theorem tw_split (k : Char) (r : Str) : ∃ t, r = r.takeWhile (· ≠ k) ++ t ∧ k ∉ r.takeWhile (· ≠ k) ∧ (t = [] ∨ ∃ t', t = k :: t') := by
  induction r with
  | nil => exact ⟨[], by simp⟩
  | cons x xs ih =>
    by_cases h : x = k
    · subst h; exact ⟨x :: xs, by simp⟩
    · obtain ⟨t, h1, h2, h3⟩ := ih
      refine ⟨t, ?_, ?_, h3⟩
      · simp only [List.takeWhile_cons, ne_eq, h, not_false_eq_true, decide_true, if_true, List.cons_append]
        exact congrArg _ h1
      · simp only [List.takeWhile_cons, ne_eq, h, not_false_eq_true, decide_true, if_true, List.mem_cons, not_or]
        exact ⟨fun e => h e.symm, h2⟩

theorem tw_app (k : Char) (d t : Str) (hd : k ∉ d) (ht : t = [] ∨ ∃ t', t = k :: t') : (d ++ t).takeWhile (· ≠ k) = d := by
  induction d with
  | nil => rcases ht with rfl | ⟨t', rfl⟩ <;> simp
  | cons x xs ih =>
    simp only [List.mem_cons, not_or] at hd
    have : ¬ x = k := fun e => hd.1 e.symm
    simp only [List.cons_append, List.takeWhile_cons, ne_eq, this, not_false_eq_true, decide_true, if_true]
    rw [ih hd.2]

theorem wildcard_cases (pat : Str) :
    (wildcard pat = 2 ∧ ∃ r, pat = '*' :: '.' :: r) ∨ (wildcard pat = 1 ∧ ∃ r, pat = '.' :: r) ∨
    (wildcard pat = 0 ∧ ¬ ['.'] <+: pat ∧ ¬ ['*', '.'] <+: pat) := by
  unfold wildcard
  match pat with
  | [] => simp
  | [a] =>
    by_cases h : a = '.'
    · subst h; simp
    · simp [h, List.prefix_cons_iff]
      intro e; exact h e.symm
  | a :: b :: r =>
    by_cases h : a = '*' ∧ b = '.'
    · obtain ⟨rfl, rfl⟩ := h; simp
    · by_cases h' : a = '.'
      · subst h'; simp
      · right; right
        simp only [List.length_cons, List.getElem?_cons_zero, List.getElem?_cons_succ, Option.some.injEq, h', if_false]
        rw [if_neg (fun x => h x.2)]
        refine ⟨rfl, ?_, ?_⟩
        · simp only [List.cons_prefix_cons, not_and]; exact fun e => absurd e.symm h'
        · simp only [List.cons_prefix_cons, not_and]; exact fun e e' => absurd ⟨e.symm, e'.symm⟩ h

/-- the end of `matches_pattern` -/
def tailMatch (host domain : Str) : Bool :=
    if host.length < domain.length then false
    else if host.drop (host.length - domain.length) ≠ domain then false
    else if host.length = domain.length then true
    else decide (host[host.length - domain.length - 1]? = some '.')

theorem tailMatch_iff (host d : Str) : tailMatch host d = true ↔ (host = d ∨ ∃ l, host = l ++ '.' :: d) := by
  unfold tailMatch
  constructor
  · intro h
    split at h
    · simp at h
    split at h
    · simp at h
    rename_i h1 h2
    split at h
    · left
      rename_i h3
      rw [h3] at h2
      simpa using h2
    · rename_i h3
      right
      refine ⟨host.take (host.length - d.length - 1), ?_⟩
      have h4 := of_decide_eq_true h
      have h5 := not_not.1 h2
      conv => lhs; rw [← List.take_append_drop (host.length - d.length - 1) host]
      congr 1
      obtain ⟨hlt, hg⟩ := List.getElem?_eq_some_iff.1 h4
      rw [List.drop_eq_getElem_cons hlt, hg, show host.length - d.length - 1 + 1 = host.length - d.length by omega, h5]
  · rintro (rfl | ⟨l, rfl⟩)
    · simp
    · have e1 : (l ++ '.' :: d).length - d.length = l.length + 1 := by simp; omega
      rw [if_neg (by simp; omega), e1, if_neg, if_neg (by simp; omega)]
      · simp
      · simp

theorem matchesPattern_iff (host port pat : Str) : matchesPattern host port pat = true ↔ Pattern host port pat := by
  unfold matchesPattern Pattern
  by_cases h0 : pat = []
  · subst h0; simp
  by_cases h1 : pat = ['*']
  · subst h1; simp
  have h1' : ¬ (pat.length = 1 ∧ pat[0]? = some '*') := by
    rintro ⟨a, b⟩
    match pat, a, b with
    | [x], _, b => simp at b; subst b; exact h1 rfl
  rw [if_neg (by simp [h0]), if_neg h1']
  simp only [h1, false_or, ne_eq, h0, not_false_eq_true, true_and]
  have key : ∀ (r : Str),
      ((if (r.drop ((r.takeWhile (· ≠ ':')).length + 1)).length ≠ 0 ∧
          strlcmpEq port (r.drop ((r.takeWhile (· ≠ ':')).length + 1)) = false then false else true) = true) ↔
      ∃ prt, r = r.takeWhile (· ≠ ':') ++ prt ∧ (prt = [] ∨ prt = [':'] ∨ prt = ':' :: port) := by
    intro r
    obtain ⟨t, h1, h2, h3⟩ := tw_split ':' r
    generalize hD : r.takeWhile (· ≠ ':') = D at *
    subst h1
    rcases h3 with rfl | ⟨t', rfl⟩
    · simp
    · simp only [List.append_cancel_left_eq, show (D ++ ':' :: t').drop (D.length + 1) = t' by simp [List.drop_append]]
      cases t' with
      | nil => simp
      | cons x xs =>
        simp only [strlcmpEq]
        by_cases hp : port = x :: xs <;> simp [hp]
        exact fun e => hp e.symm
  have comb : ∀ (c : Prop) [Decidable c] (b : Bool), (if c then false else b) = true ↔ ((if c then false else true) = true ∧ b = true) := by
    intro c _ b; by_cases h : c <;> simp [h]
  have fin : ∀ r (b : Bool), ((if (r.drop ((r.takeWhile (· ≠ ':')).length + 1)).length ≠ 0 ∧
          strlcmpEq port (r.drop ((r.takeWhile (· ≠ ':')).length + 1)) = false then false else b) = true) ↔
      (∃ prt, r = r.takeWhile (· ≠ ':') ++ prt ∧ (prt = [] ∨ prt = [':'] ∨ prt = ':' :: port)) ∧ b = true := by
    intro r b
    rw [comb, key]
  have col : ∀ prt : Str, (prt = [] ∨ prt = [':'] ∨ prt = ':' :: port) → (prt = [] ∨ ∃ t', prt = ':' :: t') := by
    rintro prt (h | h | h)
    · exact .inl h
    · exact .inr ⟨_, h⟩
    · exact .inr ⟨_, h⟩
  rw [fin]
  rcases wildcard_cases pat with ⟨hw, r, rfl⟩ | ⟨hw, r, rfl⟩ | ⟨hw, hp1, hp2⟩
  · rw [hw, if_neg (by decide)]
    simp only [List.drop_succ_cons, List.drop_zero]
    have := tailMatch_iff host (r.takeWhile (· ≠ ':'))
    unfold tailMatch at this
    rw [this]
    constructor
    · rintro ⟨⟨prt, h1, h2⟩, h3⟩
      obtain ⟨_, _, hc, _⟩ := tw_split ':' r
      exact ⟨['*', '.'], _, prt, by simpa using h1, hc, h2, .inr ⟨.inr rfl, h3⟩⟩
    · rintro ⟨pre, dom, prt, h1, h2, h3, h4⟩
      rcases h4 with ⟨_, _, h, _⟩ | ⟨hp | hp, h5⟩
      · exact absurd ⟨r, rfl⟩ h
      · subst hp; simp at h1
      · subst hp
        have e : r = dom ++ prt := by simpa using h1
        subst e
        rw [tw_app ':' dom prt h2 (col _ h3)]
        exact ⟨⟨prt, rfl, h3⟩, h5⟩
  · rw [hw, if_neg (by decide)]
    simp only [List.drop_succ_cons, List.drop_zero]
    have := tailMatch_iff host (r.takeWhile (· ≠ ':'))
    unfold tailMatch at this
    rw [this]
    constructor
    · rintro ⟨⟨prt, h1, h2⟩, h3⟩
      obtain ⟨_, _, hc, _⟩ := tw_split ':' r
      exact ⟨['.'], _, prt, by simpa using h1, hc, h2, .inr ⟨.inl rfl, h3⟩⟩
    · rintro ⟨pre, dom, prt, h1, h2, h3, h4⟩
      rcases h4 with ⟨_, h, _, _⟩ | ⟨hp | hp, h5⟩
      · exact absurd ⟨r, rfl⟩ h
      · subst hp
        have e : r = dom ++ prt := by simpa using h1
        subst e
        rw [tw_app ':' dom prt h2 (col _ h3)]
        exact ⟨⟨prt, rfl, h3⟩, h5⟩
      · subst hp; simp at h1
  · rw [hw, if_pos rfl]
    simp only [List.drop_zero, strlcmpEq, decide_eq_true_eq]
    constructor
    · rintro ⟨⟨prt, h1, h2⟩, h3⟩
      obtain ⟨_, _, hc, _⟩ := tw_split ':' pat
      exact ⟨[], _, prt, by simpa using h1, hc, h2, .inl ⟨rfl, hp1, hp2, h3⟩⟩
    · rintro ⟨pre, dom, prt, h1, h2, h3, h4⟩
      rcases h4 with ⟨rfl, _, _, h5⟩ | ⟨hp | hp, h5⟩
      · have e : pat = dom ++ prt := by simpa using h1
        subst e
        rw [tw_app ':' dom prt h2 (col _ h3)]
        exact ⟨⟨prt, rfl, h3⟩, h5⟩
      · subst hp; exact absurd ⟨dom ++ prt, by simp [h1]⟩ hp1
      · subst hp; exact absurd ⟨dom ++ prt, by simp [h1]⟩ hp2

theorem piece_one (D p : Str) (hD : ',' ∉ D) : Piece D p ↔ p = D := by
  constructor
  · rintro ⟨h1, a, b, h2, h3, h4⟩
    have ha : a = [] := by
      rcases h3 with h | ⟨x, h⟩
      · exact h
      · subst h; subst h2; simp at hD
    have hb : b = [] := by
      rcases h4 with h | ⟨x, h⟩
      · exact h
      · subst h; subst h2; simp at hD
    subst ha; subst hb; simpa using h2.symm
  · rintro rfl
    exact ⟨hD, [], [], by simp, .inl rfl, .inl rfl⟩

theorem piece_cons (D t p : Str) (hD : ',' ∉ D) : Piece (D ++ ',' :: t) p ↔ p = D ∨ Piece t p := by
  constructor
  · rintro ⟨h1, a, b, h2, h3, h4⟩
    rcases h3 with rfl | ⟨a', rfl⟩
    · left
      rcases h4 with rfl | ⟨x, rfl⟩
      · simp only [List.nil_append, List.append_nil] at h2
        subst h2; simp at h1
      · have e1 := tw_app ',' D (',' :: t) hD (.inr ⟨_, rfl⟩)
        have e2 := tw_app ',' p (',' :: x) h1 (.inr ⟨_, rfl⟩)
        rw [← e1, ← e2, h2]; simp
    · right
      have h2' : D ++ ',' :: t = a' ++ ',' :: (p ++ b) := by simpa using h2
      rcases List.append_eq_append_iff.1 h2' with ⟨c, h5, h6⟩ | ⟨c, h5, h6⟩
      · cases c with
        | nil => simp only [List.nil_append, List.cons.injEq, true_and] at h6
                 exact ⟨h1, [], b, by simpa using h6, .inl rfl, h4⟩
        | cons y ys =>
          simp only [List.cons_append, List.cons.injEq] at h6
          refine ⟨h1, ys ++ [','], b, by simp [h6.2], .inr ⟨ys, rfl⟩, h4⟩
      · cases c with
        | nil => simp only [List.nil_append, List.cons.injEq, true_and] at h6
                 exact ⟨h1, [], b, by simpa using h6.symm, .inl rfl, h4⟩
        | cons y ys =>
          simp only [List.cons_append, List.cons.injEq] at h6
          subst h5; exact absurd (by rw [← h6.1]; simp) hD
  · rintro (rfl | ⟨h1, a, b, h2, h3, h4⟩)
    · exact ⟨hD, [], ',' :: t, by simp, .inl rfl, .inr ⟨t, rfl⟩⟩
    · refine ⟨h1, D ++ ',' :: a, b, by simp [h2], ?_, h4⟩
      rcases h3 with rfl | ⟨x, rfl⟩
      · exact .inr ⟨D, rfl⟩
      · exact .inr ⟨D ++ ',' :: x, by simp⟩

theorem matchesPattern_nil (host port : Str) : matchesPattern host port [] = false := rfl

theorem matchesList_iff (host port : Str) : ∀ fuel list, list.length < fuel →
    (matchesList host port fuel list = true ↔ ∃ p, Piece list p ∧ Pattern host port p) := by
  intro fuel
  induction fuel with
  | zero => intro l h; omega
  | succ n ih =>
    intro l hl
    unfold matchesList
    by_cases h0 : l = []
    · subst h0
      simp only [if_true, Bool.false_eq_true, false_iff, not_exists, not_and]
      intro p hp hq
      rw [piece_one [] p (by simp)] at hp
      subst hp
      simp [Pattern] at hq
    · rw [if_neg h0]
      obtain ⟨t, h1, h2, h3⟩ := tw_split ',' l
      simp only
      generalize hD : l.takeWhile (· ≠ ',') = D at *
      subst h1
      rw [show (D ++ t).drop D.length = t by simp]
      have hm := matchesPattern_iff host port D
      rcases h3 with rfl | ⟨t', rfl⟩
      · simp only [List.append_nil, piece_one D _ h2, exists_eq_left]
        rw [← hm]
        by_cases hb : matchesPattern host port D = true <;> simp [hb]
      · have := ih t' (by simp at hl; omega)
        simp only [piece_cons D t' _ h2]
        by_cases hb : matchesPattern host port D = true
        · simp only [hb, if_true, true_iff]
          exact ⟨D, .inl rfl, hm.1 hb⟩
        · simp only [hb, List.cons_ne_nil, if_false, List.drop_succ_cons, List.drop_zero]
          rw [if_neg (by simp), this]
          constructor
          · rintro ⟨p, h5, h6⟩; exact ⟨p, .inr h5, h6⟩
          · rintro ⟨p, h5 | h5, h6⟩
            · subst h5; exact absurd (hm.2 h6) hb
            · exact ⟨p, h5, h6⟩

end Verif.NetHost
