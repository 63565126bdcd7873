import Verif.ConfigFile.Lemmas4
/-! # The writer -/
namespace Verif.ConfigFile
open Commit (isspace)
open ConfigVal (toLower caseEq)

/-- the entries of a list of events -/
def entriesOf (es : List Event) : List Entry := es.flatMap entryOf

/-- the name a variable has in a section is the name to be written -/
theorem fullName_eq (c : Option Bytes) (sec nm n : Bytes) (hn : ∀ x ∈ n, keychar x = true) (hnm : ∀ x ∈ nm, x ≠ 46) :
    fullName c n = sec ++ 46 :: nm ↔ c = some sec ∧ n.map toLower = nm := by
  have hd : ∀ x ∈ n.map toLower, x ≠ 46 := by
    intro x hx
    obtain ⟨y, hy, rfl⟩ := List.mem_map.1 hx
    exact (keychar_lower y (hn y hy)).1
  cases c with
  | none =>
    simp only [fullName, reduceCtorEq, false_and, iff_false]
    intro h
    exact hd 46 (by rw [h]; simp) rfl
  | some s =>
    have e : fullName (some s) n = s ++ 46 :: n.map toLower := by simp [fullName]
    rw [e]
    constructor
    · intro h
      have h1 := congrArg sectionPart h
      have h2 := congrArg namePart h
      rw [sectionPart_dot _ _ hd, sectionPart_dot _ _ hnm] at h1
      rw [namePart_dot _ _ hd, namePart_dot _ _ hnm] at h2
      exact ⟨by rw [h1], h2⟩
    · rintro ⟨h1, h2⟩
      rw [h2, Option.some.inj h1]

/-- what the writer is to write: the parts fit together, and its lines mean what they should -/
structure Fits (t : Target) (key : Bytes) : Prop where
  key : key = t.section' ++ 46 :: t.name
  lower : t.name.map toLower = t.name
  nodot : ∀ x ∈ t.name, x ≠ 46

/-- the values the writer leaves for the variable, after events that had the values `old` -/
def Out (t : Target) (value : Option Bytes) (v : Bytes) (old now : List (Option Bytes)) (w : WState) : Prop :=
  match t.preg, value with
  | none, none => now = [] ∧ w.value = none
  | none, some x => (w.value = some x ∧ now = [] ∧ old = []) ∨ (w.value = none ∧ now = [some v])
  | some p, none => w.value = none ∧ (∀ o ∈ old, o ≠ none) ∧ now = old.filter (fun o => !(p (o.getD [])))
  | some p, some x => w.value = some x ∧ (∀ o ∈ old, o ≠ none) ∧ now = old.map (fun o => if p (o.getD []) then some v else o) ∧
      w.replaced = old.any (fun o => p (o.getD []))

/-- the state of the writer after the events `done` -/
structure Inv (t : Target) (key : Bytes) (value : Option Bytes) (v : Bytes) (c : Option Bytes) (done : List Entry) (w : WState) : Prop where
  sec : w.inSection = true ↔ c = some t.section'
  com : Good w.comment c [] c
  com' : ∀ k, Good w.comment k [] k
  ex : ∃ now, Good w.buf none now c ∧ others key now = others key done ∧ Out t value v (values key done) (values key now) w

theorem values_append (key : Bytes) (a b : List Entry) : values key (a ++ b) = values key a ++ values key b := by simp [values]
theorem others_append (key : Bytes) (a b : List Entry) : others key (a ++ b) = others key a ++ others key b := by simp [others]
theorem values_same (key : Bytes) (o : Option Bytes) : values key [(key, o)] = [o] := by simp [values]
theorem others_same (key : Bytes) (o : Option Bytes) : others key [(key, o)] = [] := by simp [others]
theorem values_other (key k : Bytes) (o : Option Bytes) (h : k ≠ key) : values key [(k, o)] = [] := by simp [values, h]
theorem others_other (key k : Bytes) (o : Option Bytes) (h : k ≠ key) : others key [(k, o)] = [(k, o)] := by simp [others, h]

theorem step_sect {t : Target} {key : Bytes} {value : Option Bytes} {v : Bytes} {c c1 : Option Bytes} {done : List Entry} {w : WState}
    (ht : Fits t key) (hv : ∀ x, value = some x → Good (valueLine t.origName x) (some t.section') [(key, some v)] (some t.section'))
    {name raw : Bytes} {inl : Bool} (he : EvGood c c1 (.sect name raw inl)) (h : Inv t key value v c done w) :
    Inv t key value v c1 done (onSection t w name raw) := by
  obtain ⟨rfl, hg⟩ := he
  -- leaving the section
  have hleave : ∃ now, Good (leaveSection t w).buf none now c ∧ others key now = others key done ∧
      Out t value v (values key done) (values key now) (leaveSection t w) ∧ (leaveSection t w).comment = w.comment := by
    obtain ⟨now, h1, h2, h3⟩ := h.ex
    have hsame : ∀ w', w' = w → ∃ now, Good w'.buf none now c ∧ others key now = others key done ∧ Out t value v (values key done) (values key now) w' ∧
        w'.comment = w.comment := by
      rintro w' rfl; exact ⟨now, h1, h2, h3, rfl⟩
    cases hx : w.value with
    | none => exact hsame _ (by unfold leaveSection; rw [hx])
    | some x =>
      by_cases hc : w.inSection = true ∧ t.preg.isNone = true
      · have hcs := h.sec.1 hc.1
        have hpn : t.preg = none := by simpa using hc.2
        have hw : leaveSection t w = writeValue t w x := by unfold leaveSection; rw [hx]; simp only; rw [if_pos hc]
        rw [hw]
        unfold Out at h3
        rw [hpn] at h3
        cases value with
        | none => simp only at h3; rw [hx] at h3; exact absurd h3.2 (by simp)
        | some y =>
          simp only [hx, Option.some.injEq, reduceCtorEq, false_and, or_false] at h3
          obtain ⟨rfl, h4, h5⟩ := h3
          refine ⟨now ++ [(key, some v)], ?_, ?_, ?_, rfl⟩
          · subst hcs
            exact h1.append (hv _ rfl)
          · rw [others_append, others_same, List.append_nil, h2]
          · unfold Out
            rw [hpn]
            right
            refine ⟨?_, by rw [values_append, values_same, h4]; rfl⟩
            simp [writeValue, hpn]
      · exact hsame _ (by unfold leaveSection; rw [hx]; simp only; rw [if_neg hc])
  obtain ⟨now, h1, h2, h3, hcm⟩ := hleave
  refine ⟨by simp [onSection], Good.nil _, Good.nil, now, ?_, h2, ?_⟩
  · have := (h1.append (hcm ▸ h.com)).append (hg c)
    simpa [onSection] using this
  · exact h3

theorem step_comment {t : Target} {key : Bytes} {value : Option Bytes} {v : Bytes} {c c1 : Option Bytes} {done : List Entry} {w : WState}
    {raw : Bytes} {inl : Bool} (he : EvGood c c1 (.comment raw inl)) (h : Inv t key value v c done w) :
    Inv t key value v c1 done (onComment w raw) := by
  obtain ⟨rfl, hg⟩ := he
  exact ⟨h.sec, by simpa [onComment] using h.com.append (hg c1), fun k => by simpa [onComment] using (h.com' k).append (hg k), h.ex⟩

theorem step_var {t : Target} {key : Bytes} {value : Option Bytes} {v : Bytes} {c c1 : Option Bytes} {done : List Entry} {w w' : WState}
    (ht : Fits t key) (hv : ∀ x, value = some x → Good (valueLine t.origName x) (some t.section') [(key, some v)] (some t.section'))
    {cur : Option Bytes} {name raw : Bytes} {val : Option Bytes} {inl u : Bool} (he : EvGood c c1 (.var cur name val raw inl u))
    (h : Inv t key value v c done w) (hw : onVariable t w name val raw = .ok w') :
    Inv t key value v c1 (done ++ [(fullName cur name, val)]) w' := by
  obtain ⟨rfl, rfl, hk, hg⟩ := he
  obtain ⟨now, h1, h2, h3⟩ := h.ex
  have hbuf : Good (w.buf ++ w.comment) none now cur := by simpa using h1.append h.com
  have hiff : (w.inSection = true ∧ caseEq t.name name = true) ↔ fullName cur name = key := by
    rw [ht.key, fullName_eq _ _ _ _ hk ht.nodot, h.sec]
    constructor
    · rintro ⟨a, b⟩
      simp only [caseEq, decide_eq_true_eq] at b
      exact ⟨a, by rw [← b, ht.lower]⟩
    · rintro ⟨a, b⟩
      exact ⟨a, by simp only [caseEq, decide_eq_true_eq]; rw [ht.lower, b]⟩
  unfold onVariable at hw
  simp only at hw
  unfold matches' at hw
  simp only at hw
  by_cases hm : w.inSection = true ∧ caseEq t.name name = true
  · rw [if_pos hm] at hw
    have hkey := hiff.1 hm
    have hcs := h.sec.1 hm.1
    rw [hkey]
    unfold Out at h3
    -- not matched: the variable stays
    have hstay : w' = { w with buf := w.buf ++ w.comment ++ withNl raw, comment := [] } →
        Out t value v (values key done ++ [val]) (values key now ++ [val]) w' → Inv t key value v cur (done ++ [(key, val)]) w' := by
      intro e ho
      refine ⟨by rw [e]; exact h.sec, by rw [e]; exact Good.nil _, by rw [e]; exact Good.nil, now ++ [(fullName cur name, val)], ?_, ?_, ?_⟩
      · rw [e]; exact hbuf.append hg
      · rw [hkey, others_append, others_append, others_same, h2]
      · rw [hkey, values_append, values_append, values_same]; exact ho
    -- matched and deleted
    have hdel : w' = { w with buf := w.buf ++ w.comment, comment := [], replaced := true } →
        Out t value v (values key done ++ [val]) (values key now) w' → Inv t key value v cur (done ++ [(key, val)]) w' := by
      intro e ho
      refine ⟨by rw [e]; exact h.sec, by rw [e]; exact Good.nil _, by rw [e]; exact Good.nil, now, ?_, ?_, ?_⟩
      · rw [e]; exact hbuf
      · rw [others_append, others_same, List.append_nil, h2]
      · rw [values_append, values_same]; exact ho
    -- matched and replaced
    have hrep : ∀ x, value = some x → w' = writeValue t { w with buf := w.buf ++ w.comment, comment := [], replaced := true } x →
        Out t value v (values key done ++ [val]) (values key now ++ [some v]) w' → Inv t key value v cur (done ++ [(key, val)]) w' := by
      intro x hx e ho
      refine ⟨by rw [e]; exact h.sec, by rw [e]; exact Good.nil _, by rw [e]; exact Good.nil, now ++ [(key, some v)], ?_, ?_, ?_⟩
      · rw [e]; subst hcs; exact hbuf.append (hv x hx)
      · rw [others_append, others_append, others_same, others_same, h2]
      · rw [values_append, values_append, values_same, values_same]; exact ho
    cases hp : t.preg with
    | none =>
      rw [hp] at hw h3
      simp only at hw
      cases hval : w.value with
      | none =>
        rw [hval] at hw
        have hw := (Res.ok.inj hw).symm
        apply hdel (by rw [hw, hval])
        unfold Out; rw [hp]
        cases value with
        | none => simp only at h3 ⊢; exact ⟨h3.1, by rw [hw]⟩
        | some y =>
          simp only [hval, reduceCtorEq, false_and, true_and, false_or] at h3 ⊢
          right; exact ⟨by rw [hw], h3⟩
      | some x =>
        rw [hval] at hw
        have hw := (Res.ok.inj hw).symm
        cases value with
        | none => simp only [hval, reduceCtorEq, and_false] at h3
        | some y =>
          simp only [hval, Option.some.injEq, reduceCtorEq, false_and, or_false] at h3
          obtain ⟨rfl, h4, h5⟩ := h3
          apply hrep x rfl (by rw [hw, hval])
          unfold Out; rw [hp]
          right
          exact ⟨by rw [hw]; simp [writeValue, hp], by rw [h4]; rfl⟩
    | some p =>
      rw [hp] at hw h3
      cases val with
      | none => simp only at hw; cases hw
      | some o =>
        simp only at hw
        cases hpo : p o with
        | false =>
          rw [hpo] at hw
          have hw := (Res.ok.inj hw).symm
          apply hstay hw
          unfold Out; rw [hp]
          cases value with
          | none =>
            simp only at h3 ⊢
            refine ⟨by rw [hw]; exact h3.1, ?_, ?_⟩
            · intro x hx; rcases List.mem_append.1 hx with hx | hx
              · exact h3.2.1 x hx
              · simp at hx; simp [hx]
            · rw [List.filter_append, ← h3.2.2]; simp [hpo]
          | some y =>
            simp only at h3 ⊢
            refine ⟨by rw [hw]; exact h3.1, ?_, ?_, ?_⟩
            · intro x hx; rcases List.mem_append.1 hx with hx | hx
              · exact h3.2.1 x hx
              · simp at hx; simp [hx]
            · rw [List.map_append, ← h3.2.2.1]; simp [hpo]
            · rw [hw, List.any_append, ← h3.2.2.2]; simp [hpo]
        | true =>
          rw [hpo] at hw
          simp only at hw
          cases value with
          | none =>
            simp only at h3
            rw [h3.1] at hw
            have hw := (Res.ok.inj hw).symm
            apply hdel (by rw [hw, h3.1])
            unfold Out; rw [hp]
            simp only
            refine ⟨by rw [hw], ?_, ?_⟩
            · intro x hx; rcases List.mem_append.1 hx with hx | hx
              · exact h3.2.1 x hx
              · simp at hx; simp [hx]
            · rw [List.filter_append, ← h3.2.2]; simp [hpo]
          | some y =>
            simp only at h3
            rw [h3.1] at hw
            have hw := (Res.ok.inj hw).symm
            apply hrep y rfl (by rw [hw, h3.1])
            unfold Out; rw [hp]
            simp only
            refine ⟨by rw [hw]; simp [writeValue, hp], ?_, ?_, ?_⟩
            · intro x hx; rcases List.mem_append.1 hx with hx | hx
              · exact h3.2.1 x hx
              · simp at hx; simp [hx]
            · rw [List.map_append, ← h3.2.2.1]; simp [hpo]
            · rw [hw, List.any_append]; simp [hpo, writeValue]
  · rw [if_neg hm] at hw
    have hkey : fullName cur name ≠ key := fun e => hm (hiff.2 e)
    have hw := (Res.ok.inj hw).symm
    refine ⟨by rw [hw]; exact h.sec, by rw [hw]; exact Good.nil _, by rw [hw]; exact Good.nil, now ++ [(fullName cur name, val)], ?_, ?_, ?_⟩
    · rw [hw]; exact hbuf.append hg
    · rw [others_append, others_append, others_other _ _ _ hkey, h2]
    · rw [values_append, values_append, values_other _ _ _ hkey, List.append_nil, List.append_nil, hw]
      exact h3

theorem run_inv {t : Target} {key : Bytes} {value : Option Bytes} {v : Bytes} (ht : Fits t key)
    (hv : ∀ x, value = some x → Good (valueLine t.origName x) (some t.section') [(key, some v)] (some t.section'))
    {c c' : Option Bytes} {es : List Event} (hc : Chain c es c') : ∀ (done : List Entry) (w w' : WState), Inv t key value v c done w →
    onEvents t w es = .ok w' → Inv t key value v c' (done ++ entriesOf es) w' := by
  induction hc with
  | nil c =>
    intro done w w' h hr
    have := Res.ok.inj hr; subst this
    simpa [entriesOf] using h
  | @cons c c1 c2 e es he hc ih =>
    intro done w w' h hr
    rw [onEvents] at hr
    cases e with
    | sect name raw inl =>
      simp only [onEvent] at hr
      have := ih _ _ _ (step_sect ht hv he h) hr
      simpa [entriesOf, entryOf] using this
    | comment raw inl =>
      simp only [onEvent] at hr
      have := ih _ _ _ (step_comment he h) hr
      simpa [entriesOf, entryOf] using this
    | var cur name val raw inl u =>
      simp only [onEvent] at hr
      cases hw : onVariable t w name val raw with
      | err e => rw [hw] at hr; cases hr
      | ub => rw [hw] at hr; cases hr
      | ok w1 =>
        rw [hw] at hr
        have := ih _ _ _ (step_var ht hv he h hw) hr
        simpa [entriesOf, entryOf] using this

/-- what is left of the variable when the file is written -/
def Result (preg : Option (Bytes → Bool)) (value : Option Bytes) (v : Bytes) (old new : List (Option Bytes)) : Prop :=
  match preg, value with
  | none, none => new = []
  | none, some _ => new = [some v]
  | some p, none => (∀ o ∈ old, o ≠ none) ∧ new = old.filter (fun o => !(p (o.getD [])))
  | some p, some _ => (∀ o ∈ old, o ≠ none) ∧
      new = if old.any (fun o => p (o.getD [])) then old.map (fun o => if p (o.getD []) then some v else o) else old ++ [some v]

theorem eof_good {t : Target} {key : Bytes} {value : Option Bytes} {v : Bytes} {c : Option Bytes} {done : List Entry} {w : WState}
    (hv : ∀ x, value = some x → Good (valueLine t.origName x) (some t.section') [(key, some v)] (some t.section'))
    (hs : value ≠ none → ∀ k, Good (sectionLine t.origSection) k [] (some t.section')) (h : Inv t key value v c done w) :
    ∃ now c', Good (onEof t w c) none now c' ∧ others key now = others key done ∧ Result t.preg value v (values key done) (values key now) := by
  obtain ⟨now, h1, h2, h3⟩ := h.ex
  have hbuf : Good (w.buf ++ w.comment) none now c := by simpa using h1.append h.com
  have hhdr : value ≠ none → Good (eofHeader t c) c [] (some t.section') := by
    intro hne
    unfold eofHeader
    by_cases hc : c = some t.section'
    · rw [if_pos hc, hc]; exact Good.nil _
    · rw [if_neg hc]; exact hs hne c
  have hfull : ∀ x, value = some x → Good (w.buf ++ w.comment ++ eofHeader t c ++ valueLine t.origName x) none (now ++ [(key, some v)]) (some t.section') := by
    intro x hx
    have := (hbuf.append (hhdr (by rw [hx]; simp))).append (hv x hx)
    simpa using this
  unfold Out at h3
  unfold onEof Result
  cases hp : t.preg with
  | none =>
    rw [hp] at h3
    cases value with
    | none =>
      simp only at h3
      rw [h3.2]
      exact ⟨now, c, hbuf, h2, h3.1⟩
    | some y =>
      simp only at h3
      rcases h3 with ⟨h4, h5, h6⟩ | ⟨h4, h5⟩
      · rw [h4]
        simp only
        rw [if_pos (by simp)]
        exact ⟨_, _, hfull y rfl, by rw [others_append, others_same, List.append_nil, h2], by rw [values_append, values_same, h5]; rfl⟩
      · rw [h4]
        exact ⟨now, c, hbuf, h2, h5⟩
  | some p =>
    rw [hp] at h3
    cases value with
    | none =>
      simp only at h3
      rw [h3.1]
      exact ⟨now, c, hbuf, h2, h3.2.1, h3.2.2⟩
    | some y =>
      simp only at h3
      rw [h3.1]
      simp only
      cases hr : w.replaced with
      | true =>
        rw [if_neg (by simp)]
        rw [hr] at h3
        refine ⟨now, c, hbuf, h2, h3.2.1, ?_⟩
        rw [← h3.2.2.2, if_pos rfl]; exact h3.2.2.1
      | false =>
        rw [if_pos (by simp)]
        rw [hr] at h3
        refine ⟨_, _, hfull y rfl, by rw [others_append, others_same, List.append_nil, h2], h3.2.1, ?_⟩
        rw [← h3.2.2.2, if_neg (by simp), values_append, values_same, h3.2.2.1]
        congr 1
        have hno : ∀ o ∈ values key done, p (o.getD []) = false := by
          intro o ho
          have := h3.2.2.2.symm
          rw [List.any_eq_false] at this
          simpa using this o ho
        conv => rhs; rw [← List.map_id (values key done)]
        apply List.map_congr_left
        intro o ho
        simp [hno o ho]

/-! ### reading back -/

theorem obs_tidy (es : List Event) (ents : List Entry) (h : es.flatMap obs = marks ents) :
    es.flatMap entryOf = ents ∧ ∀ e ∈ es, TidyEvent e := by
  have h1 : ∀ e ∈ es, TidyEvent e := by
    intro e he
    have hall : ∀ x ∈ obs e, x.2 = true := by
      intro x hx
      have : x ∈ marks ents := by rw [← h]; exact List.mem_flatMap.2 ⟨e, he, hx⟩
      obtain ⟨y, _, rfl⟩ := List.mem_map.1 this
      rfl
    cases e with
    | sect n r inl => cases inl with
      | false => rfl
      | true => have := hall (none, false) (by simp [obs]); simp at this
    | comment => trivial
    | var cur n v r inl u =>
      have := hall _ (List.mem_singleton.2 rfl)
      simp at this
      exact this
  refine ⟨?_, h1⟩
  have h2 : (es.flatMap obs).filterMap (·.1) = es.flatMap entryOf := by
    clear h
    induction es with
    | nil => rfl
    | cons e es ih =>
      have := ih (fun x hx => h1 x (by simp [hx]))
      rw [List.flatMap_cons, List.filterMap_append, this, List.flatMap_cons]
      congr 1
      have he := h1 e (by simp)
      cases e with
      | sect n r inl => cases inl with
        | false => rfl
        | true => exact absurd he (by simp [TidyEvent])
      | comment => rfl
      | var cur n v r inl u => rfl
  rw [← h2, h]
  simp only [marks]
  rw [List.filterMap_map]
  exact List.filterMap_some

/-- a text that starts with a byte order mark makes no sense, as the mark is no letter -/
theorem bom_bad (r : Bytes) (p : List Event × Option Bytes) (cur : Option Bytes) (n : Nat) : parseLoop n cur (0xEF :: r) ≠ .ok p := by
  intro h
  cases n with
  | zero => cases h
  | succ n =>
    rw [parseLoop_succ, if_neg (by simp)] at h
    have hl : lineOf (0xEF :: r) = 0xEF :: lineOf r := by rw [lineOf, if_neg (by decide)]
    rw [hl] at h
    have hs : isspace 0xEF = false := by decide
    have hf : firstChar (0xEF :: lineOf r) = some 0xEF := by simp [firstChar, hs]
    have hw : skipWs (0xEF :: lineOf r) = 0xEF :: lineOf r := by simp [skipWs, hs]
    have hx : ∃ rr q, stripComments (lineStr (0xEF :: lineOf r)) 0 = (rr, q) ∧ (rr.head? = some 0xEF) := by
      refine ⟨_, _, rfl, ?_⟩
      unfold lineStr
      rw [hw]
      have hc : Sig.cstr (0xEF :: lineOf r) = 0xEF :: Sig.cstr (lineOf r) := by
        unfold Sig.cstr; rw [List.takeWhile_cons_of_pos (by decide)]
      rw [hc, stripLoop]
      simp only [show ¬((0xEF : UInt8) = 59 ∨ (0xEF : UInt8) = 35) by decide, false_and, if_false]
      generalize (stripLoop (some 239) (if (239 : UInt8) = 34 ∧ none ≠ some 92 then 0 + 1 else 0) (if (239 : UInt8) = 92 then 0 + 1 else 0) (Sig.cstr (lineOf r))).1 = z
      unfold rtrim
      rw [List.reverse_cons]
      have : ∀ a : Bytes, ((a ++ [0xEF]).dropWhile isspace).reverse.head? = some 0xEF := by
        intro a
        induction a with
        | nil => simp [hs]
        | cons x y ih =>
          by_cases hx : isspace x = true
          · simpa [hx] using ih
          · simp [hx]
      exact this _
    obtain ⟨rr, q, h1, h2⟩ := hx
    have hpn : parseName rr = .err (-1) := by
      cases rr with
      | nil => simp at h2
      | cons a b =>
        simp at h2; subst h2
        have : keychar 0xEF = false := by decide
        simp [parseName, this]
    rw [parseLine_succ, hf] at h
    simp only [show (0xEF : UInt8) ≠ 91 by decide, if_false,
      show ¬((0xEF : UInt8) = 10 ∨ (0xEF : UInt8) = 13 ∨ (0xEF : UInt8) = 32 ∨ (0xEF : UInt8) = 9 ∨ (0xEF : UInt8) = 59 ∨ (0xEF : UInt8) = 35) by decide,
      varLine, parseVariable, h1, hpn] at h
    cases h

theorem nul_bad (r : Bytes) (p : List Event × Option Bytes) (cur : Option Bytes) (n : Nat) : parseLoop n cur (0 :: r) ≠ .ok p := by
  intro h
  cases n with
  | zero => cases h
  | succ n =>
    rw [parseLoop_succ, if_neg (by simp)] at h
    have hl : lineOf (0 :: r) = 0 :: lineOf r := by rw [lineOf, if_neg (by decide)]
    rw [hl] at h
    have hs : isspace 0 = false := by decide
    have hf : firstChar (0 :: lineOf r) = some 0 := by simp [firstChar, hs]
    have hw : lineStr (0 :: lineOf r) = [] := by simp [lineStr, skipWs, hs, Sig.cstr]
    rw [parseLine_succ, hf] at h
    simp only [show (0 : UInt8) ≠ 91 by decide, if_false,
      show ¬((0 : UInt8) = 10 ∨ (0 : UInt8) = 13 ∨ (0 : UInt8) = 32 ∨ (0 : UInt8) = 9 ∨ (0 : UInt8) = 59 ∨ (0 : UInt8) = 35) by decide,
      varLine, parseVariable, hw] at h
    cases h

theorem good_parse {f : Bytes} {ents : List Entry} {c : Option Bytes} (h : Good f none ents c) : readEntries f = .ok ents ∧ Tidy f := by
  have h1 := h []
  rw [List.append_nil, V_nil] at h1
  unfold V at h1
  cases hp : parseLoop (f.length + 1) none f with
  | err e => rw [hp] at h1; cases h1
  | ub => rw [hp] at h1; cases h1
  | ok p =>
    rw [hp] at h1
    have h1 := Res.ok.inj h1
    have h2 : p.1.flatMap obs = marks ents := by
      have := congrArg Prod.fst h1; simpa using this
    obtain ⟨h3, h4⟩ := obs_tidy _ _ h2
    have hbom : skipBom f = f := by
      unfold skipBom
      split
      · exact absurd hp (bom_bad _ _ _ _)
      · rfl
    have hparse : parse f = .ok p := by unfold parse; rw [hbom]; exact hp
    have hz : f.head? ≠ some 0 := by
      intro e
      cases f with
      | nil => cases e
      | cons a r => simp at e; subst e; exact nul_bad _ _ _ _ hp
    refine ⟨?_, p, hparse, h4⟩
    unfold readEntries
    rw [if_neg hz, hparse]
    simp only [h3]

end Verif.ConfigFile
