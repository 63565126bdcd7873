import Verif.ConfigFile.Lemmas
/-! # Pieces of text that mean the same wherever they stand -/
namespace Verif.ConfigFile
open Commit (isspace)
open ConfigVal (toLower caseEq)
open Sig (cstr)

/-! ### fuel -/

theorem afterLine_len (t : Bytes) (h : t ≠ []) : (afterLine t).length < t.length := by
  induction t with
  | nil => exact absurd rfl h
  | cons c r ih =>
    unfold afterLine
    by_cases hc : c = 10
    · simp [hc]
    · by_cases hr : r = []
      · subst hr; simp [hc, afterLine]
      · have := ih hr; simp [hc]; omega

theorem multi_zero (text : Bytes) (inq : Nat) (val : Bytes) : multi 0 text inq val = .ub := rfl

theorem multi_succ (n : Nat) (text : Bytes) (inq : Nat) (val : Bytes) : multi (n + 1) text inq val =
    if cstr (lineOf text) = [] then .ok ⟨val, afterLine text, text = []⟩
    else if (stripComments (cstr (lineOf text)) inq).1 = [] then
      multi n (afterLine text) (stripComments (cstr (lineOf text)) inq).2 val
    else
      match unescape (stripComments (cstr (lineOf text)) inq).1 with
      | .err e => .err e
      | .ub => .ub
      | .ok u =>
        if u.2 then multi n (afterLine text) (stripComments (cstr (lineOf text)) inq).2 (val ++ u.1)
        else .ok ⟨val ++ u.1, afterLine text, false⟩ := rfl

theorem withNl_append (a c : Bytes) (hc : c ≠ []) : withNl (a ++ c) = a ++ withNl c := by
  have h : (a ++ c).getLast? = c.getLast? := by rw [List.getLast?_append]; cases c with
    | nil => exact absurd rfl hc
    | cons x y => simp [List.getLast?_cons]
  unfold withNl
  rw [h]
  cases hg : c.getLast? with
  | none => rfl
  | some x => by_cases hx : x = 10 <;> simp [hx]

/-- a value that is continued: the lines it takes, and that they mean the same before every other text -/
theorem multi_local (n : Nat) : ∀ (text : Bytes) (inq : Nat) (val : Bytes) (v : Val), multi n text inq val = .ok v → v.unfinished = false →
    ∃ c, text = c ++ v.rest ∧ c ≠ [] ∧ ((∃ i, c = i ++ [10]) ∨ v.rest = []) ∧
      ∀ T m, (withNl c ++ T).length < m → multi m (withNl c ++ T) inq val = .ok ⟨v.value, T, false⟩ := by
  induction n with
  | zero => intro text inq val v h; cases h
  | succ n ih =>
    intro text inq val v h hu
    have htext : text ≠ [] := by
      intro e; subst e
      rw [multi_succ, if_pos (show cstr (lineOf []) = [] from rfl)] at h
      have := Res.ok.inj h; subst this; simp at hu
    obtain ⟨b, hb, hc⟩ := line_cases text htext
    have hline : LineOf (lineOf text) b := ⟨hb, by rcases hc with h | h; exact Or.inl h; exact Or.inr ⟨h.1, h.2.1⟩⟩
    have hnl : (∃ i, lineOf text = i ++ [10]) ∨ afterLine text = [] := by
      rcases hc with h | h; exact Or.inl ⟨b, h⟩; exact Or.inr h.2.2
    -- what the line is to the parser with its newline
    have hstr : ∀ T, stripComments (cstr (lineOf (withNl (lineOf text) ++ T))) inq = stripComments (cstr (lineOf text)) inq := by
      intro T
      rw [hline.line]
      rcases hline.2 with e | ⟨e, _⟩
      · rw [← e]
      · rw [e, strip_cstr_snoc]
    have hemp : ∀ T, cstr (lineOf (withNl (lineOf text) ++ T)) = [] ↔ cstr (lineOf text) = [] := by
      intro T
      rw [hline.line]
      rcases hline.2 with e | ⟨e, hne⟩
      · rw [← e]
      · rw [e]
        cases b with
        | nil => exact absurd rfl hne
        | cons x y => by_cases hx : x = 0 <;> simp [cstr, hx]
    rw [multi_succ] at h
    by_cases h1 : cstr (lineOf text) = []
    · rw [if_pos h1] at h
      have := Res.ok.inj h; subst this
      refine ⟨lineOf text, (line_append text).symm, hline.ne, hnl, ?_⟩
      intro T m hm
      match m, hm with
      | m + 1, hm =>
        rw [multi_succ, if_pos ((hemp T).2 h1), hline.after]
        have : withNl (lineOf text) ++ T ≠ [] := by rw [hline.nl]; simp
        simp [this]
    · rw [if_neg h1] at h
      have hstep : ∀ T m, multi (m + 1) (withNl (lineOf text) ++ T) inq val =
          if (stripComments (cstr (lineOf text)) inq).1 = [] then
            multi m T (stripComments (cstr (lineOf text)) inq).2 val
          else
            match unescape (stripComments (cstr (lineOf text)) inq).1 with
            | .err e => .err e
            | .ub => .ub
            | .ok u =>
              if u.2 then multi m T (stripComments (cstr (lineOf text)) inq).2 (val ++ u.1)
              else .ok ⟨val ++ u.1, T, false⟩ := by
        intro T m
        rw [multi_succ, if_neg (fun e => h1 ((hemp T).1 e)), hline.after, hstr T]
      -- a further line is needed
      have hmore : ∀ q' val', multi n (afterLine text) q' val' = .ok v → (∀ T m, multi (m + 1) (withNl (lineOf text) ++ T) inq val = multi m T q' val') →
          ∃ c, text = c ++ v.rest ∧ c ≠ [] ∧ ((∃ i, c = i ++ [10]) ∨ v.rest = []) ∧
          ∀ T m, (withNl c ++ T).length < m → multi m (withNl c ++ T) inq val = .ok ⟨v.value, T, false⟩ := by
        intro q' val' hm hs
        obtain ⟨c, hc1, hc2, hc3, hc4⟩ := ih _ _ _ _ hm hu
        have hbn : lineOf text = b ++ [10] := by
          rcases hc with h | h
          · exact h
          · rw [h.2.2] at hc1; simp at hc1; exact absurd hc1.1 hc2
        have hw : withNl (lineOf text ++ c) = withNl (lineOf text) ++ withNl c := by
          rw [withNl_append _ _ hc2, hbn, withNl_nl]
        refine ⟨lineOf text ++ c, ?_, by simp [hc2], ?_, ?_⟩
        · rw [List.append_assoc, ← hc1, line_append]
        · rcases hc3 with ⟨i, hi⟩ | h
          · exact Or.inl ⟨lineOf text ++ i, by simp [hi]⟩
          · exact Or.inr h
        · intro T m hlt
          match m, hlt with
          | m + 1, hlt =>
            rw [hw, List.append_assoc, hs]
            apply hc4
            rw [hw, hbn, withNl_nl] at hlt
            simp at hlt ⊢; omega
      by_cases h2 : (stripComments (cstr (lineOf text)) inq).1 = []
      · rw [if_pos h2] at h
        exact hmore _ _ h (fun T m => by rw [hstep, if_pos h2])
      · rw [if_neg h2] at h
        cases hun : unescape (stripComments (cstr (lineOf text)) inq).1 with
        | err e => rw [hun] at h; cases h
        | ub => rw [hun] at h; cases h
        | ok u =>
          rw [hun] at h
          simp only at h
          by_cases h3 : u.2 = true
          · rw [if_pos h3] at h
            exact hmore _ _ h (fun T m => by rw [hstep, if_neg h2, hun]; simp only; rw [if_pos h3])
          · rw [if_neg h3] at h
            have := Res.ok.inj h; subst this
            refine ⟨lineOf text, (line_append text).symm, hline.ne, hnl, ?_⟩
            intro T m hm
            match m, hm with
            | m + 1, hm =>
              rw [hstep, if_neg h2, hun]; simp only; rw [if_neg h3]

theorem multi_rest (n : Nat) : ∀ (text : Bytes) (inq : Nat) (val : Bytes) (v : Val), multi n text inq val = .ok v → v.rest.length ≤ text.length := by
  induction n with
  | zero => intro text inq val v h; cases h
  | succ n ih =>
    intro text inq val v h
    have ha : (afterLine text).length ≤ text.length := by
      by_cases ht : text = []
      · subst ht; simp [afterLine]
      · exact Nat.le_of_lt (afterLine_len _ ht)
    rw [multi_succ] at h
    by_cases h1 : cstr (lineOf text) = []
    · rw [if_pos h1] at h; have := Res.ok.inj h; subst this; exact ha
    · rw [if_neg h1] at h
      by_cases h2 : (stripComments (cstr (lineOf text)) inq).1 = []
      · rw [if_pos h2] at h; exact Nat.le_trans (ih _ _ _ _ h) ha
      · rw [if_neg h2] at h
        cases hun : unescape (stripComments (cstr (lineOf text)) inq).1 with
        | err e => rw [hun] at h; cases h
        | ub => rw [hun] at h; cases h
        | ok u =>
          rw [hun] at h
          simp only at h
          by_cases h3 : u.2 = true
          · rw [if_pos h3] at h; exact Nat.le_trans (ih _ _ _ _ h) ha
          · rw [if_neg h3] at h
            have := Res.ok.inj h; subst this; exact ha

theorem parseVariable_rest (line text : Bytes) (v : Var) (h : parseVariable line text = .ok v) : v.rest.length ≤ text.length := by
  unfold parseVariable at h
  cases hn : parseName (stripComments (lineStr line) 0).1 with
  | err e => rw [hn] at h; cases h
  | ub => rw [hn] at h; cases h
  | ok n =>
    rw [hn] at h; simp only at h
    unfold parseValue at h
    cases hv : n.2 with
    | none => rw [hv] at h; have := Res.ok.inj h; subst this; exact Nat.le_refl _
    | some w =>
      rw [hv] at h; simp only at h
      cases hu : unescape (w.dropWhile isspace) with
      | err e => rw [hu] at h; cases h
      | ub => rw [hu] at h; cases h
      | ok u =>
        rw [hu] at h; simp only at h
        by_cases h3 : u.2 = true
        · rw [if_pos h3] at h
          cases hm : multi (text.length + 1) text ((stripComments (lineStr line) 0).2 % 2) u.1 with
          | err e => rw [hm] at h; cases h
          | ub => rw [hm] at h; cases h
          | ok r =>
            rw [hm] at h; have := Res.ok.inj h; subst this; exact multi_rest _ _ _ _ _ hm
        · rw [if_neg h3] at h
          have := Res.ok.inj h; subst this; exact Nat.le_refl _

/-- a variable, wherever it stands -/
theorem parseVariable_local {line b text : Bytes} {v : Var} (hl : LineOf line b) (hnl : line = b ++ [10] ∨ text = [])
    (h : parseVariable line text = .ok v) (hu : v.unfinished = false) :
    ∃ c, text = c ++ v.rest ∧ ∃ b2, withNl (line ++ c) = b ++ 10 :: b2 ∧
      ∀ T, parseVariable (b ++ [10]) (b2 ++ T) = .ok ⟨v.name, v.value, T, false⟩ := by
  have hstrip : stripComments (lineStr (b ++ [10])) 0 = stripComments (lineStr line) 0 := by rw [← hl.nl, hl.strip]
  unfold parseVariable at h
  cases hn : parseName (stripComments (lineStr line) 0).1 with
  | err e => rw [hn] at h; cases h
  | ub => rw [hn] at h; cases h
  | ok n =>
    rw [hn] at h; simp only at h
    cases hpv : parseValue (stripComments (lineStr line) 0).2 n.2 text with
    | err e => rw [hpv] at h; cases h
    | ub => rw [hpv] at h; cases h
    | ok pv =>
      rw [hpv] at h
      have := Res.ok.inj h; subst this
      simp only at hu
      have hfin : ∀ t' v', parseValue (stripComments (lineStr line) 0).2 n.2 t' = .ok v' →
          parseVariable (b ++ [10]) t' = .ok ⟨n.1, v'.1, v'.2.1, v'.2.2⟩ := by
        intro t' v' hp
        unfold parseVariable
        rw [hstrip, hn]; simp only; rw [hp]
      -- only one line
      have hone : (∀ t', parseValue (stripComments (lineStr line) 0).2 n.2 t' = .ok (pv.1, t', false)) → pv = (pv.1, text, false) →
          ∃ c, text = c ++ pv.2.1 ∧ ∃ b2, withNl (line ++ c) = b ++ 10 :: b2 ∧
          ∀ T, parseVariable (b ++ [10]) (b2 ++ T) = .ok ⟨n.1, pv.1, T, false⟩ := by
        intro ht he
        refine ⟨[], by rw [he]; rfl, [], ?_, ?_⟩
        · rw [List.append_nil, hl.nl]
        · intro T; rw [List.nil_append]; exact hfin _ _ (ht T)
      unfold parseValue at hpv hone
      cases hv : n.2 with
      | none =>
        rw [hv] at hpv hone; simp only at hpv hone
        have := Res.ok.inj hpv; subst this
        exact hone (fun _ => rfl) rfl
      | some w =>
        rw [hv] at hpv hone; simp only at hpv hone
        cases hun : unescape (w.dropWhile isspace) with
        | err e => rw [hun] at hpv; cases hpv
        | ub => rw [hun] at hpv; cases hpv
        | ok u =>
          rw [hun] at hpv hone; simp only at hpv hone
          by_cases h3 : u.2 = true
          · rw [if_pos h3] at hpv
            cases hm : multi (text.length + 1) text ((stripComments (lineStr line) 0).2 % 2) u.1 with
            | err e => rw [hm] at hpv; cases hpv
            | ub => rw [hm] at hpv; cases hpv
            | ok r =>
              rw [hm] at hpv
              have := Res.ok.inj hpv; subst this
              simp only at hu
              obtain ⟨c, hc1, hc2, hc3, hc4⟩ := multi_local _ _ _ _ _ hm hu
              have hbn : line = b ++ [10] := by
                rcases hnl with h | h
                · exact h
                · rw [h] at hc1; simp at hc1; exact absurd hc1.1 hc2
              refine ⟨c, hc1, withNl c, ?_, ?_⟩
              · rw [withNl_append _ _ hc2, hbn]; simp
              · intro T
                refine hfin _ (some r.value, T, false) ?_
                unfold parseValue
                rw [hv]; simp only; rw [hun]; simp only
                rw [if_pos h3, hc4 T _ (Nat.lt_succ_self _)]
          · simp only [h3, if_false] at hpv hone
            have := Res.ok.inj hpv; subst this
            exact hone (fun _ => rfl) rfl

end Verif.ConfigFile
