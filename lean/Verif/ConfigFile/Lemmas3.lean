import Verif.ConfigFile.Lemmas2
/-! # What the events of a tidy file mean when they are written again -/
namespace Verif.ConfigFile
open Commit (isspace)
open ConfigVal (toLower caseEq)
open Sig (cstr)

/-- what is seen of an event: entries, and whether it is tidy -/
def obs : Event → List (Option Entry × Bool)
  | .sect _ _ inl => if inl then [(none, false)] else []
  | .var cur name value _ inl unf => [(some (fullName cur name, value), !(inl || unf))]
  | .comment _ _ => []

abbrev View := Res (List (Option Entry × Bool) × Option Bytes)

def viewOf : Res (List Event × Option Bytes) → View
  | .ok p => .ok (p.1.flatMap obs, p.2)
  | .err e => .err e
  | .ub => .ub

def pre (l : List (Option Entry × Bool)) : View → View
  | .ok p => .ok (l ++ p.1, p.2)
  | .err e => .err e
  | .ub => .ub

theorem pre_nil (v : View) : pre [] v = v := by cases v <;> rfl
theorem pre_pre (a b : List (Option Entry × Bool)) (v : View) : pre a (pre b v) = pre (a ++ b) v := by
  cases v <;> simp [pre]
theorem view_prepend (es : List Event) (r) : viewOf (prepend es r) = pre (es.flatMap obs) (viewOf r) := by
  cases r <;> simp [prepend, viewOf, pre]

theorem parseLine_succ (fuel : Nat) (cur : Option Bytes) (inl : Bool) (line text : Bytes) : parseLine (fuel + 1) cur inl line text =
    match firstChar line with
    | none => .ok ⟨[], cur, text⟩
    | some c =>
      if c = c!"[" then
        match parseHeader line with
        | .err e => .err e
        | .ub => .ub
        | .ok h =>
          if h.2.any (fun c => !isspace c) then consEvent (.sect h.1 line inl) (parseLine fuel (some h.1) true h.2 text)
          else .ok ⟨[.sect h.1 line inl], some h.1, text⟩
      else if c = c!"\n" ∨ c = c!"\r" ∨ c = c!" " ∨ c = c!"\t" ∨ c = c!";" ∨ c = c!"#" then .ok ⟨[.comment line inl], cur, text⟩
      else varLine cur inl line text := rfl

theorem parseLine_rest (fuel : Nat) : ∀ (cur : Option Bytes) (inl : Bool) (line text : Bytes) (r : LineRes),
    parseLine fuel cur inl line text = .ok r → r.rest.length ≤ text.length := by
  induction fuel with
  | zero => intro cur inl line text r h; cases h
  | succ n ih =>
    intro cur inl line text r h
    rw [parseLine_succ] at h
    cases hf : firstChar line with
    | none => rw [hf] at h; have := Res.ok.inj h; subst this; exact Nat.le_refl _
    | some c =>
      rw [hf] at h; simp only at h
      by_cases h1 : c = 91
      · rw [if_pos h1] at h
        cases hh : parseHeader line with
        | err e => rw [hh] at h; cases h
        | ub => rw [hh] at h; cases h
        | ok p =>
          rw [hh] at h; simp only at h
          by_cases h2 : (p.2.any fun c => !isspace c) = true
          · rw [if_pos h2] at h
            cases hr : parseLine n (some p.1) true p.2 text with
            | err e => rw [hr] at h; cases h
            | ub => rw [hr] at h; cases h
            | ok q => rw [hr] at h; have := Res.ok.inj h; subst this; exact ih _ _ _ _ q hr
          · rw [if_neg h2] at h; have := Res.ok.inj h; subst this; exact Nat.le_refl _
      · rw [if_neg h1] at h
        by_cases h2 : c = 10 ∨ c = 13 ∨ c = 32 ∨ c = 9 ∨ c = 59 ∨ c = 35
        · rw [if_pos h2] at h; have := Res.ok.inj h; subst this; exact Nat.le_refl _
        · rw [if_neg h2] at h
          unfold varLine at h
          cases hv : parseVariable line text with
          | err e => rw [hv] at h; cases h
          | ub => rw [hv] at h; cases h
          | ok v =>
            rw [hv] at h; have := Res.ok.inj h; subst this
            exact parseVariable_rest _ _ _ hv

theorem parseLoop_succ (fuel : Nat) (cur : Option Bytes) (text : Bytes) : parseLoop (fuel + 1) cur text =
    if text = [] then .ok ([], cur)
    else
      match parseLine (lineOf text).length.succ cur false (lineOf text) (afterLine text) with
      | .err e => .err e
      | .ub => .ub
      | .ok r => prepend r.events (parseLoop fuel r.cur r.rest) := rfl

theorem parseLoop_fuel (n : Nat) : ∀ m cur text, text.length < n → text.length < m → parseLoop n cur text = parseLoop m cur text := by
  induction n with
  | zero => intro m cur text h; omega
  | succ n ih =>
    intro m cur text h1 h2
    match m, h2 with
    | m + 1, h2 =>
      rw [parseLoop_succ, parseLoop_succ]
      by_cases ht : text = []
      · rw [if_pos ht, if_pos ht]
      · rw [if_neg ht, if_neg ht]
        cases hr : parseLine (lineOf text).length.succ cur false (lineOf text) (afterLine text) with
        | err e => rfl
        | ub => rfl
        | ok r =>
          simp only
          have := parseLine_rest _ _ _ _ _ _ hr
          have h3 := afterLine_len text ht
          rw [ih m _ _ (by omega) (by omega)]

/-- the meaning of a text read from section `cur` -/
def V (cur : Option Bytes) (t : Bytes) : View := viewOf (parseLoop (t.length + 1) cur t)

theorem V_nil (cur : Option Bytes) : V cur [] = .ok ([], cur) := by
  simp [V, parseLoop, viewOf]

theorem V_step (cur : Option Bytes) (t : Bytes) (ht : t ≠ []) (r : LineRes)
    (h : parseLine (lineOf t).length.succ cur false (lineOf t) (afterLine t) = .ok r) :
    V cur t = pre (r.events.flatMap obs) (V r.cur r.rest) := by
  unfold V
  rw [parseLoop_succ, if_neg ht, h]
  simp only
  rw [view_prepend]
  have := parseLine_rest _ _ _ _ _ _ h
  have h3 := afterLine_len t ht
  rw [parseLoop_fuel t.length (r.rest.length + 1) _ _ (by omega) (by omega)]

def marks (l : List Entry) : List (Option Entry × Bool) := l.map fun e => (some e, true)

/-- a text with a meaning of its own: read in section `c` it gives the entries and leads to section `c'` -/
def Good (raw : Bytes) (c : Option Bytes) (ents : List Entry) (c' : Option Bytes) : Prop :=
  ∀ T, V c (raw ++ T) = pre (marks ents) (V c' T)

theorem Good.nil (c : Option Bytes) : Good [] c [] c := by
  intro T; simp [marks, pre_nil]

theorem Good.append {a b : Bytes} {c1 c2 c3 : Option Bytes} {x y : List Entry} (h1 : Good a c1 x c2) (h2 : Good b c2 y c3) :
    Good (a ++ b) c1 (x ++ y) c3 := by
  intro T
  rw [List.append_assoc, h1, h2, pre_pre]; simp [marks]

theorem good_of_line {b b2 raw : Bytes} {c c' : Option Bytes} {ents : List Entry} (hb : ∀ x ∈ b, x ≠ 10) (hraw : raw = b ++ 10 :: b2)
    (h : ∀ T, ∃ evs, parseLine (b ++ [10]).length.succ c false (b ++ [10]) (b2 ++ T) = .ok ⟨evs, c', T⟩ ∧ evs.flatMap obs = marks ents) :
    Good raw c ents c' := by
  intro T
  obtain ⟨evs, h1, h2⟩ := h T
  have hl : lineOf (raw ++ T) = b ++ [10] := by rw [hraw, List.append_assoc]; exact lineOf_body _ _ hb
  have ha : afterLine (raw ++ T) = b2 ++ T := by rw [hraw, List.append_assoc]; exact afterLine_body _ _ hb
  have hne : raw ++ T ≠ [] := by rw [hraw]; simp
  rw [← hl, ← ha] at h1
  rw [V_step c _ hne _ h1, h2]

/-- what an event of a tidy file says about its text when it is written with a newline -/
def EvGood (c : Option Bytes) (c' : Option Bytes) : Event → Prop
  | .sect name raw _ => c' = some name ∧ ∀ k, Good (withNl raw) k [] (some name)
  | .var cur name value raw _ _ => c' = c ∧ cur = c ∧ (∀ x ∈ name, keychar x = true) ∧ Good (withNl raw) c [(fullName c name, value)] c
  | .comment raw _ => c' = c ∧ ∀ k, Good (withNl raw) k [] k

inductive Chain : Option Bytes → List Event → Option Bytes → Prop
  | nil (c) : Chain c [] c
  | cons {c c1 c2 e es} : EvGood c c1 e → Chain c1 es c2 → Chain c (e :: es) c2

theorem good_comment {l b : Bytes} (hl : LineOf l b) {x : UInt8} (hf : firstChar l = some x) (h1 : x ≠ 91)
    (h2 : x = 10 ∨ x = 13 ∨ x = 32 ∨ x = 9 ∨ x = 59 ∨ x = 35) (k : Option Bytes) : Good (withNl l) k [] k := by
  refine good_of_line (b := b) (b2 := []) hl.1 hl.nl ?_
  intro T
  refine ⟨[.comment (b ++ [10]) false], ?_, rfl⟩
  have hf' := hl.firstChar
  rw [hl.nl] at hf'
  rw [parseLine_succ, hf', hf]
  simp only [h1, h2, if_true, if_false]
  rfl

theorem rest_lineOf {p2 b : Bytes} (h : p2 <:+ b) (hb : ∀ x ∈ b, x ≠ 10) (hne : p2 ≠ []) : LineOf p2 p2 :=
  ⟨fun x hx => hb x (h.subset hx), Or.inr ⟨rfl, hne⟩⟩

theorem parseHeader_suffix (line : Bytes) (p : Bytes × Bytes) (h : parseHeader line = .ok p) : p.2 <:+ line := by
  unfold parseHeader at h
  cases hs : parseHeaderStr (lineStr line) with
  | err e => rw [hs] at h; cases h
  | ub => rw [hs] at h; cases h
  | ok q =>
    rw [hs] at h; have := Res.ok.inj h; subst this
    exact (List.drop_suffix _ _).trans (List.dropWhile_suffix _)

theorem suffix_line {l b p2 : Bytes} (hl : LineOf l b) (h : p2 <:+ l) (hne : p2 ≠ []) : ∃ b', LineOf p2 b' := by
  rcases hl.2 with rfl | ⟨rfl, _⟩
  · rcases list_snoc_induction (p := fun l => l = [] ∨ ∃ i a, l = i ++ [a]) (Or.inl rfl) (fun l a _ => Or.inr ⟨l, a, rfl⟩) p2 with h0 | ⟨i, a, rfl⟩
    · exact absurd h0 hne
    · obtain ⟨s, hs⟩ := h
      rw [← List.append_assoc] at hs
      have := List.append_inj' hs rfl
      simp at this
      refine ⟨i, fun x hx => hl.1 x (by rw [← this.1]; simp [hx]), Or.inl (by rw [this.2])⟩
  · exact ⟨p2, rest_lineOf h hl.1 hne⟩

theorem parseName_keychar (l : Bytes) (n : Bytes × Option Bytes) (h : parseName l = .ok n) : ∀ x ∈ n.1, keychar x = true := by
  unfold parseName at h
  by_cases h1 : l.takeWhile keychar = []
  · rw [if_pos h1] at h; cases h
  · rw [if_neg h1] at h
    have ht := takeWhile_all keychar l
    cases hd : (l.dropWhile keychar).dropWhile isspace with
    | nil => rw [hd] at h; have := Res.ok.inj h; subst this; exact ht
    | cons c v =>
      rw [hd] at h; simp only at h
      by_cases h2 : c = 61
      · rw [if_pos h2] at h; have := Res.ok.inj h; subst this; exact ht
      · rw [if_neg h2] at h; cases h

theorem parseVariable_keychar (line text : Bytes) (v : Var) (h : parseVariable line text = .ok v) : ∀ x ∈ v.name, keychar x = true := by
  unfold parseVariable at h
  cases hn : parseName (stripComments (lineStr line) 0).1 with
  | err e => rw [hn] at h; cases h
  | ub => rw [hn] at h; cases h
  | ok n =>
    rw [hn] at h; simp only at h
    cases hpv : parseValue (stripComments (lineStr line) 0).2 n.2 text with
    | err e => rw [hpv] at h; cases h
    | ub => rw [hpv] at h; cases h
    | ok pv =>
      rw [hpv] at h
      have := Res.ok.inj h; subst this
      exact parseName_keychar _ _ hn

theorem firstChar_snoc (l : Bytes) (h : l ≠ []) : ConfigFile.firstChar (l ++ [10]) = ConfigFile.firstChar l := by
  have hs : isspace 10 = true := by decide
  unfold ConfigFile.firstChar
  rw [List.find?_append]
  cases hf : List.find? (fun c => !isspace c) l with
  | some c => simp
  | none => cases l with
    | nil => exact absurd rfl h
    | cons => simp [hs]

/-- the events of a line -/
theorem line_chain {line b text : Bytes} {cur : Option Bytes} {r : LineRes} {fuel : Nat} (hl : LineOf line b) (hnl : line = b ++ [10] ∨ text = [])
    (h : parseLine (fuel + 1) cur false line text = .ok r) (ht : ∀ e ∈ r.events, TidyEvent e) : Chain cur r.events r.cur := by
  obtain ⟨x, hx⟩ := firstChar_ne line hl.ne
  have hf' := hl.firstChar
  rw [hl.nl, hx] at hf'
  rw [parseLine_succ, hx] at h
  simp only at h
  by_cases h1 : x = 91
  · rw [if_pos h1] at h
    cases hh : parseHeader line with
    | err e => rw [hh] at h; cases h
    | ub => rw [hh] at h; cases h
    | ok p =>
      rw [hh] at h; simp only at h
      obtain ⟨p2, hp, hpr⟩ := hl.header hh
      rw [hl.nl] at hp
      have hany : p2.any (fun c => !isspace c) = p.2.any (fun c => !isspace c) := by
        rcases hpr with rfl | rfl
        · rfl
        · exact any_nl _
      by_cases h2 : (p.2.any fun c => !isspace c) = true
      · -- something follows the header: a comment
        rw [if_pos h2] at h
        cases hr : parseLine fuel (some p.1) true p.2 text with
        | err e => rw [hr] at h; cases h
        | ub => rw [hr] at h; cases h
        | ok q =>
          rw [hr] at h
          have := Res.ok.inj h; subst this
          have hp2ne : p.2 ≠ [] := by intro e; rw [e] at h2; simp at h2
          obtain ⟨b', hl'⟩ := suffix_line hl (parseHeader_suffix _ _ hh) hp2ne
          obtain ⟨y, hy⟩ := firstChar_ne _ hp2ne
          have hp2f : ConfigFile.firstChar p2 = some y := by
            rcases hpr with rfl | rfl
            · exact hy
            · rw [firstChar_snoc _ hp2ne]; exact hy
          match fuel with
          | 0 => cases hr
          | fuel + 1 =>
          rw [parseLine_succ, hy] at hr
          simp only at hr
          by_cases h3 : y = 91
          · exfalso
            rw [if_pos h3] at hr
            cases hh2 : parseHeader p.2 with
            | err e => rw [hh2] at hr; cases hr
            | ub => rw [hh2] at hr; cases hr
            | ok p3 =>
              rw [hh2] at hr; simp only at hr
              have : Event.sect p3.1 p.2 true ∈ q.events := by
                by_cases h5 : (p3.2.any fun c => !isspace c) = true
                · rw [if_pos h5] at hr
                  cases hr2 : parseLine fuel (some p3.1) true p3.2 text with
                  | err e => rw [hr2] at hr; cases hr
                  | ub => rw [hr2] at hr; cases hr
                  | ok q2 => rw [hr2] at hr; have := Res.ok.inj hr; subst this; simp
                · rw [if_neg h5] at hr; have := Res.ok.inj hr; subst this; simp
              have := ht _ (List.mem_cons_of_mem _ this)
              simp [TidyEvent] at this
          · rw [if_neg h3] at hr
            by_cases h4 : y = 10 ∨ y = 13 ∨ y = 32 ∨ y = 9 ∨ y = 59 ∨ y = 35
            · rw [if_pos h4] at hr
              have := Res.ok.inj hr; subst this
              refine .cons (c1 := some p.1) ⟨rfl, ?_⟩ (.cons (c1 := some p.1) ⟨rfl, ?_⟩ (.nil _))
              · intro k
                refine good_of_line (b := b) (b2 := []) hl.1 hl.nl ?_
                intro T
                refine ⟨[.sect p.1 (b ++ [10]) false, .comment p2 true], ?_, rfl⟩
                have hlen : (b ++ [10]).length.succ = (b.length + 1) + 1 := by simp
                rw [hlen, parseLine_succ, hf']
                simp only [h1, if_true, hp, hany, h2]
                rw [parseLine_succ, hp2f]
                simp only [h3, h4, if_true, if_false]
                rfl
              · intro k
                exact good_comment hl' hy h3 h4 k
            · exfalso
              rw [if_neg h4] at hr
              unfold varLine at hr
              cases hv : parseVariable p.2 text with
              | err e => rw [hv] at hr; cases hr
              | ub => rw [hv] at hr; cases hr
              | ok v =>
                rw [hv] at hr; have := Res.ok.inj hr; subst this
                have := ht _ (List.mem_cons_of_mem _ (List.mem_singleton.2 rfl))
                simp [TidyEvent] at this
      · rw [if_neg h2] at h
        have := Res.ok.inj h; subst this
        refine .cons (c1 := some p.1) ⟨rfl, ?_⟩ (.nil _)
        intro k
        refine good_of_line (b := b) (b2 := []) hl.1 hl.nl ?_
        intro T
        refine ⟨[.sect p.1 (b ++ [10]) false], ?_, rfl⟩
        rw [parseLine_succ, hf']
        simp only [h1, if_true, hp, hany, h2]
        rfl
  · rw [if_neg h1] at h
    by_cases h2 : x = 10 ∨ x = 13 ∨ x = 32 ∨ x = 9 ∨ x = 59 ∨ x = 35
    · rw [if_pos h2] at h
      have := Res.ok.inj h; subst this
      exact .cons (c1 := cur) ⟨rfl, good_comment hl hx h1 h2⟩ (.nil _)
    · rw [if_neg h2] at h
      unfold varLine at h
      cases hv : parseVariable line text with
      | err e => rw [hv] at h; cases h
      | ub => rw [hv] at h; cases h
      | ok v =>
        rw [hv] at h
        have := Res.ok.inj h; subst this
        have htv := ht _ (List.mem_singleton.2 rfl)
        simp only [TidyEvent] at htv
        obtain ⟨c, hc1, b2, hc2, hc3⟩ := parseVariable_local hl hnl hv htv.2
        have htake : text.take (text.length - v.rest.length) = c := by
          rw [hc1]; simp
        refine .cons (c1 := cur) ⟨rfl, rfl, parseVariable_keychar _ _ _ hv, ?_⟩ (.nil _)
        rw [htake]
        refine good_of_line (b := b) (b2 := b2) hl.1 hc2 ?_
        intro T
        rw [parseLine_succ, hf']
        simp only [h1, h2, if_false, varLine, hc3 T]
        exact ⟨_, rfl, by simp [obs, marks]⟩

theorem Chain.append {c1 c2 c3 : Option Bytes} {x y : List Event} (h1 : Chain c1 x c2) (h2 : Chain c2 y c3) : Chain c1 (x ++ y) c3 := by
  induction h1 with
  | nil => exact h2
  | cons he _ ih => exact .cons he (ih h2)

theorem loop_chain (n : Nat) : ∀ (cur : Option Bytes) (t : Bytes) (p : List Event × Option Bytes), parseLoop n cur t = .ok p →
    (∀ e ∈ p.1, TidyEvent e) → Chain cur p.1 p.2 := by
  induction n with
  | zero => intro cur t p h; cases h
  | succ n ih =>
    intro cur t p h ht
    rw [parseLoop_succ] at h
    by_cases h0 : t = []
    · rw [if_pos h0] at h; have := Res.ok.inj h; subst this; exact .nil _
    · rw [if_neg h0] at h
      cases hr : parseLine (lineOf t).length.succ cur false (lineOf t) (afterLine t) with
      | err e => rw [hr] at h; cases h
      | ub => rw [hr] at h; cases h
      | ok r =>
        rw [hr] at h; simp only at h
        cases hp : parseLoop n r.cur r.rest with
        | err e => rw [hp] at h; cases h
        | ub => rw [hp] at h; cases h
        | ok q =>
          rw [hp] at h; have := Res.ok.inj h; subst this
          obtain ⟨b, hb, hc⟩ := line_cases t h0
          refine Chain.append (line_chain (b := b) ⟨hb, ?_⟩ ?_ hr (fun e he => ht e (by simp [he]))) (ih _ _ _ hp (fun e he => ht e (by simp [he])))
          · rcases hc with h | h; exact Or.inl h; exact Or.inr ⟨h.1, h.2.1⟩
          · rcases hc with h | h; exact Or.inl h; exact Or.inr h.2.2

end Verif.ConfigFile
