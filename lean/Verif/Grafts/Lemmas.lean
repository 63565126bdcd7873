import Verif.Grafts.Model
import Verif.Mailmap.Lemmas3
import Verif.FetchHead.Lemmas3
/-! # The parser of grafts -/
namespace Verif.Grafts
open Mailmap (Ctx ctxInit advanceLine advanceChars)
open HashMap.Spec (lookup step Op)
open Spec (IsId Line File IsText parentsOf Graft)

theorem isId_nl {size : Nat} {t id : Bytes} (h : IsId size t id) : c!"\n" ∉ t := by
  intro hc
  have := FetchHead.mapM_hex_chars h.2 _ hc
  revert this; decide

theorem isId_space {size : Nat} {t id : Bytes} (h : IsId size t id) : c!" " ∉ t := by
  intro hc
  have := FetchHead.mapM_hex_chars h.2 _ hc
  revert this; decide

theorem isId_inj {size : Nat} {t id id' : Bytes} (h : IsId size t id) (h' : IsId size t id') : id = id' := by
  have := h.2.symm.trans h'.2
  exact Oid.nibbles_inj (Option.some.inj this)

theorem advanceOid_iff (size : Nat) (h0 : 0 < size) (l r id : Bytes) (c : Ctx) :
    advanceOid size ⟨l, r⟩ = .ok (id, c) ↔ ∃ t l', l = t ++ l' ∧ IsId size t id ∧ c = ⟨l', r⟩ := by
  unfold advanceOid
  by_cases hl : l.length < 2 * size
  · rw [if_pos hl]
    constructor
    · intro h; cases h
    · rintro ⟨t, l', rfl, ⟨ht, _⟩, _⟩
      rw [List.length_append] at hl; omega
  · rw [if_neg hl]
    have hf := (Oid.C02_from_prefix size l (2 * size) (by omega)).1
    constructor
    · intro h
      dsimp only at h
      cases hq : Oid.fromPrefix size l (2 * size) with
      | ok id' =>
        rw [hq] at h
        cases h
        obtain ⟨_, _, vs, h1, h2⟩ := (hf id).mp hq
        rw [Nat.sub_self] at h2
        refine ⟨l.take (2 * size), l.drop (2 * size), (List.take_append_drop _ _).symm, ⟨?_, ?_⟩, rfl⟩
        · rw [List.length_take]; omega
        · rw [h1, h2]; simp
      | err e => rw [hq] at h; cases h
      | ub => rw [hq] at h; cases h
    · rintro ⟨t, l', rfl, ⟨ht, hv⟩, rfl⟩
      have : Oid.fromPrefix size (t ++ l') (2 * size) = .ok id := by
        refine (hf id).mpr ⟨by omega, by omega, Oid.Spec.nibbles id, ?_, by simp⟩
        rw [← ht, List.take_left]; exact hv
      dsimp only
      rw [this]
      unfold advanceChars
      rw [← ht]
      simp

theorem advanceOid_total (size : Nat) (c : Ctx) : (∃ r, advanceOid size c = .ok r) ∨ advanceOid size c = .err (-1) := by
  unfold advanceOid
  by_cases hl : c.line.length < 2 * size
  · rw [if_pos hl]; exact .inr rfl
  · rw [if_neg hl]
    have hf := (Oid.C02_from_prefix size c.line (2 * size) (by omega)).2.2
    cases hq : Oid.fromPrefix size c.line (2 * size) with
    | ok id => exact .inl ⟨_, rfl⟩
    | err e => exact .inr rfl
    | ub => exact absurd hq hf

/-- the end of a line -/
def Nl (t : Bytes) : Prop := t = [] ∨ t = [c!"\n"]

theorem prefix_no_nl {l t l' tail : Bytes} (ht : c!"\n" ∉ t) (hn : Nl tail) (h : l ++ tail = t ++ l') : ∃ l1, l = t ++ l1 ∧ l' = l1 ++ tail := by
  rcases List.append_eq_append_iff.mp h with ⟨a, h1, h2⟩ | ⟨a, h1, h2⟩
  · cases a with
    | nil => exact ⟨[], by simpa using h1.symm, by simpa using h2.symm⟩
    | cons x a =>
      rcases hn with rfl | rfl
      · cases h2
      · simp only [List.cons_append, List.cons.injEq] at h2
        rw [h1] at ht
        exact absurd (by rw [← h2.1]; simp) ht
  · exact ⟨a, h1, h2⟩

/-- the parents of a line -/
def Pairs (size : Nat) (l : Bytes) (ps : List (Bytes × Bytes)) : Prop := l = ps.flatMap (fun p => b!" " ++ p.1) ∧ ∀ p ∈ ps, IsId size p.1 p.2

theorem expected_nl_nil {tail r : Bytes} (hn : Nl tail) :
    (tail = [] ∨ advanceExpected ⟨tail, r⟩ b!"\n" = some ⟨[], r⟩) := by
  rcases hn with rfl | rfl
  · exact .inl rfl
  · exact .inr rfl

theorem expected_one (x : UInt8) (l r : Bytes) (y : UInt8) : advanceExpected ⟨x :: l, r⟩ [y] = if x = y then some ⟨l, r⟩ else none := by
  unfold advanceExpected advanceChars
  by_cases h : x = y
  · simp [h]
  · simp [h]

theorem parentsLoop_spec (size : Nat) (h0 : 0 < size) : ∀ (f : Nat) (l tail r : Bytes) (ps : List Bytes), l.length < f → c!"\n" ∉ l → Nl tail →
    (∃ qs, Pairs size l qs ∧ parentsLoop size f ⟨l ++ tail, r⟩ ps = .ok (ps ++ qs.map (·.2), ⟨[], r⟩)) ∨
    ((∀ qs, ¬ Pairs size l qs) ∧ parentsLoop size f ⟨l ++ tail, r⟩ ps = .err (-1)) := by
  intro f
  induction f with
  | zero => intro l _ _ _ h; omega
  | succ f ih =>
    intro l tail r ps hf hl hn
    unfold parentsLoop
    cases l with
    | nil =>
      refine .inl ⟨[], ⟨rfl, by simp⟩, ?_⟩
      rcases hn with rfl | rfl
      · simp
      · rw [if_neg (by simp), List.nil_append, expected_one]
        simp
    | cons x l =>
      rw [if_neg (by simp)]
      have hx : x ≠ c!"\n" := fun h => hl (by rw [h]; simp)
      rw [List.cons_append, expected_one, if_neg hx, expected_one]
      by_cases hs : x = c!" "
      · rw [if_pos hs]
        dsimp only
        rcases advanceOid_total size ⟨l ++ tail, r⟩ with ⟨⟨id, c⟩, ho⟩ | ho
        · obtain ⟨t, l', h1, h2, h3⟩ := (advanceOid_iff size h0 _ r id c).mp ho
          obtain ⟨l1, h4, h5⟩ := prefix_no_nl (isId_nl h2) hn h1
          subst h3 h4 h5
          rw [ho, Res.bind_ok]
          rcases ih l1 tail r (ps ++ [id]) (by simp at hf; omega) (fun h => hl (by simp [h])) hn with ⟨qs, q1, q2⟩ | ⟨q1, q2⟩
          · refine .inl ⟨(t, id) :: qs, ⟨?_, ?_⟩, ?_⟩
            · rw [q1.1, hs]; simp
            · intro p hp
              rcases List.mem_cons.mp hp with rfl | hp
              · exact h2
              · exact q1.2 p hp
            · rw [q2]; simp
          · refine .inr ⟨?_, q2⟩
            rintro qs ⟨e1, e2⟩
            cases qs with
            | nil => cases e1
            | cons q qs =>
              simp only [List.flatMap_cons, List.cons_append, List.nil_append, List.cons.injEq] at e1
              have hq := e2 q (by simp)
              obtain ⟨e3, e4⟩ := List.append_inj e1.2 (by rw [h2.1, hq.1])
              exact q1 qs ⟨e4, fun p hp => e2 p (by simp [hp])⟩
        · rw [ho, Res.bind_err]
          refine .inr ⟨?_, rfl⟩
          rintro qs ⟨e1, e2⟩
          cases qs with
          | nil => cases e1
          | cons q qs =>
            simp only [List.flatMap_cons, List.cons_append, List.nil_append, List.cons.injEq] at e1
            have := (advanceOid_iff size h0 (l ++ tail) r q.2 _).mpr ⟨q.1, _, by rw [e1.2, List.append_assoc], e2 q (by simp), rfl⟩
            rw [this] at ho; cases ho
      · rw [if_neg hs]
        refine .inr ⟨?_, rfl⟩
        rintro qs ⟨e1, e2⟩
        cases qs with
        | nil => cases e1
        | cons q qs =>
          simp only [List.flatMap_cons, List.cons_append, List.cons.injEq] at e1
          exact hs e1.1

theorem line_step (size : Nat) (h0 : 0 < size) (f : Nat) (l tail r : Bytes) (m : Map) (hl : c!"\n" ∉ l) (hn : Nl tail) (hne : l ++ tail ≠ []) :
    (∃ g, Line size l g ∧ parseLoop size (f + 1) ⟨l ++ tail, r⟩ m = parseLoop size f (ctxInit r) (add m g.oid g.parents)) ∨
    ((∀ g, ¬ Line size l g) ∧ parseLoop size (f + 1) ⟨l ++ tail, r⟩ m = .ok (m, -1)) := by
  have hpos : ¬ ((l ++ tail).length + r.length = 0) := by
    intro h
    exact hne (List.length_eq_zero_iff.mp (by omega))
  rw [parseLoop.eq_2]
  rw [if_neg hpos]
  rcases advanceOid_total size ⟨l ++ tail, r⟩ with ⟨⟨id, c⟩, ho⟩ | ho
  · obtain ⟨t, l', h1, h2, h3⟩ := (advanceOid_iff size h0 _ r id c).mp ho
    obtain ⟨l1, h4, h5⟩ := prefix_no_nl (isId_nl h2) hn h1
    subst h3 h4 h5
    rw [ho]
    dsimp only
    rcases parentsLoop_spec size h0 ((l1 ++ tail).length + 1) l1 tail r [] (by simp; omega) (fun h => hl (by simp [h])) hn with ⟨qs, q1, q2⟩ | ⟨q1, q2⟩
    · refine .inl ⟨⟨id, qs.map (·.2)⟩, ⟨t, qs, by rw [← q1.1], h2, rfl, q1.2⟩, ?_⟩
      rw [q2]
      rfl
    · refine .inr ⟨?_, by rw [q2]⟩
      rintro g ⟨t', qs, e1, e2, e3, e4⟩
      obtain ⟨e5, e6⟩ := List.append_inj e1 (by rw [h2.1, e2.1])
      exact q1 qs ⟨e6, e4⟩
  · rw [ho]
    refine .inr ⟨?_, rfl⟩
    rintro g ⟨t', qs, e1, e2, e3, e4⟩
    have := (advanceOid_iff size h0 (l ++ tail) r g.oid _).mpr ⟨t', _, by rw [e1, List.append_assoc], e2, rfl⟩
    rw [this] at ho; cases ho

theorem lookup_add (m : Map) (k : Bytes) (v : List Bytes) (id : Bytes) : lookup (add m k v) id = if k = id then some v else lookup m id := by
  unfold add lookup step
  rw [List.find?_cons]
  by_cases h : k = id
  · simp [h]
  · simp only [h, decide_false, if_false, List.filter_filter]
    congr 1
    rw [List.find?_filter]
    congr 1
    funext p
    by_cases hp : p.1 = id
    · have : p.1 ≠ k := fun h' => h (h'.symm.trans hp)
      simp [hp, this, Ne.symm h]
    · simp [hp]

theorem parentsOf_cons (g : Graft) (gs : List Graft) (id : Bytes) :
    parentsOf (g :: gs) id = (parentsOf gs id).or (if g.oid = id then some g.parents else none) := by
  unfold parentsOf
  rw [List.reverse_cons, List.find?_append]
  cases (gs.reverse.find? (fun g => decide (g.oid = id))) with
  | some x => rfl
  | none =>
    by_cases h : g.oid = id
    · simp [h]
    · simp [h]

/-- a text is empty, or its first line and the rest -/
theorem isText_cases {text : Bytes} {ls : List Bytes} (h : IsText text ls) :
    (text = [] ∧ ls = []) ∨ (∃ l ls' rest, ls = l :: ls' ∧ c!"\n" ∉ l ∧ text = l ++ c!"\n" :: rest ∧ IsText rest ls') ∨
    (ls = [text] ∧ c!"\n" ∉ text ∧ text ≠ []) := by
  obtain ⟨hl, h | ⟨pre, last, rfl, hne, h⟩⟩ := h
  · cases ls with
    | nil => exact .inl ⟨h, rfl⟩
    | cons l ls =>
      refine .inr (.inl ⟨l, ls, _, rfl, hl l (by simp), ?_, fun x hx => hl x (by simp [hx]), .inl rfl⟩)
      rw [h]; simp
  · cases pre with
    | nil =>
      refine .inr (.inr ⟨?_, ?_, ?_⟩)
      · rw [h]; rfl
      · rw [h]; exact hl last (by simp)
      · rw [h]; exact hne
    | cons l pre =>
      refine .inr (.inl ⟨l, pre ++ [last], _, rfl, hl l (by simp), ?_, fun x hx => hl x (by simp only [List.cons_append]; exact List.mem_cons_of_mem _ hx),
        .inr ⟨pre, last, rfl, hne, rfl⟩⟩)
      rw [h]; simp

theorem parseLoop_spec (size : Nat) (h0 : 0 < size) : ∀ (f : Nat) (text : Bytes) (ls : List Bytes) (m : Map), text.length < f → IsText text ls →
    ∃ gs c m', parseLoop size f (ctxInit text) m = .ok (m', c) ∧ File size ls gs c ∧
      ∀ id, lookup m' id = (parentsOf gs id).or (lookup m id) := by
  intro f
  induction f with
  | zero => intro _ _ _ h; omega
  | succ f ih =>
    intro text ls m hf ht
    have hbad : ∀ l ls', (∀ g, ¬ Line size l g) → ∃ gs c m', (Res.ok (m, (-1 : Int)) : Res (Map × Int)) = .ok (m', c) ∧ File size (l :: ls') gs c ∧
        ∀ id, lookup m' id = (parentsOf gs id).or (lookup m id) := fun l ls' h => ⟨[], -1, m, rfl, .bad l ls' h, fun id => rfl⟩
    have hgood : ∀ l ls' rest g, Line size l g → rest.length < f → IsText rest ls' →
        ∃ gs c m', parseLoop size f (ctxInit rest) (add m g.oid g.parents) = .ok (m', c) ∧ File size (l :: ls') gs c ∧
        ∀ id, lookup m' id = (parentsOf gs id).or (lookup m id) := by
      intro l ls' rest g hg hr ht
      obtain ⟨gs, c, m', h1, h2, h3⟩ := ih rest ls' (add m g.oid g.parents) hr ht
      refine ⟨g :: gs, c, m', h1, .good l ls' g gs c hg h2, ?_⟩
      intro id
      rw [h3, lookup_add, parentsOf_cons]
      cases parentsOf gs id with
      | some x => rfl
      | none => by_cases h : g.oid = id <;> simp [h]
    rcases isText_cases ht with ⟨rfl, rfl⟩ | ⟨l, ls', rest, rfl, hl, rfl, hr⟩ | ⟨rfl, hl, hne⟩
    · exact ⟨[], 0, m, rfl, .done, fun id => rfl⟩
    · rw [Mailmap.ctxInit_line l rest hl]
      rcases line_step size h0 f l [c!"\n"] rest m hl (.inr rfl) (by simp) with ⟨g, h1, h2⟩ | ⟨h1, h2⟩
      · rw [h2]; exact hgood l ls' rest g h1 (by simp at hf; omega) hr
      · rw [h2]; exact hbad l ls' h1
    · rw [Mailmap.ctxInit_last text hl]
      rcases line_step size h0 f text [] [] m hl (.inl rfl) (by simpa using hne) with ⟨g, h1, h2⟩ | ⟨h1, h2⟩
      · rw [h2]
        exact hgood text [] [] g h1 (by have := List.length_pos_iff.mpr hne; simp only [List.length_nil]; omega) ⟨by simp, .inl rfl⟩
      · rw [h2]; exact hbad text [] h1

theorem parse_spec (size : Nat) (h0 : 0 < size) (text : Bytes) (ls : List Bytes) (ht : IsText text ls) :
    ∃ gs c m, parse size text = .ok (m, c) ∧ File size ls gs c ∧ ∀ id, lookup m id = parentsOf gs id := by
  obtain ⟨gs, c, m, h1, h2, h3⟩ := parseLoop_spec size h0 (text.length + 1) text ls [] (by omega) ht
  refine ⟨gs, c, m, h1, h2, ?_⟩
  intro id
  rw [h3]
  cases parentsOf gs id <;> rfl

theorem isText_exists (text : Bytes) : ∃ ls, IsText text ls := by
  have key : ∀ n (text : Bytes), text.length ≤ n → ∃ ls, IsText text ls := by
    intro n
    induction n with
    | zero =>
      intro text h
      have : text = [] := List.length_eq_zero_iff.mp (by omega)
      subst this
      exact ⟨[], by simp, .inl rfl⟩
    | succ n ih =>
      intro text h
      by_cases hm : c!"\n" ∈ text
      · obtain ⟨l, rest, h1, h2⟩ := List.append_of_mem hm |> fun ⟨_, _, _⟩ => (List.eq_append_cons_of_mem hm)
        obtain ⟨ls, h3, h4⟩ := ih rest (by rw [h1] at h; simp at h; omega)
        refine ⟨l :: ls, ?_, ?_⟩
        · intro x hx
          rcases List.mem_cons.mp hx with rfl | hx
          · exact h2
          · exact h3 x hx
        · rcases h4 with h4 | ⟨pre, last, h5, h6, h7⟩
          · left; rw [h1, h4]; simp
          · right
            refine ⟨l :: pre, last, by rw [h5]; rfl, h6, ?_⟩
            rw [h1, h7]; simp
      · by_cases he : text = []
        · subst he; exact ⟨[], by simp, .inl rfl⟩
        · exact ⟨[text], by simpa using hm, .inr ⟨[], text, rfl, he, rfl⟩⟩
  exact key text.length text (Nat.le_refl _)

theorem line_unique {size : Nat} {l : Bytes} {g g' : Graft} (h : Line size l g) (h' : Line size l g') : g = g' := by
  obtain ⟨t, ps, e1, e2, e3, e4⟩ := h
  obtain ⟨t', ps', f1, f2, f3, f4⟩ := h'
  subst e1
  obtain ⟨h1, h2⟩ := List.append_inj f1 (by rw [e2.1, f2.1])
  subst h1
  have hp : ∀ (ps ps' : List (Bytes × Bytes)), (∀ p ∈ ps, IsId size p.1 p.2) → (∀ p ∈ ps', IsId size p.1 p.2) →
      ps.flatMap (fun p => b!" " ++ p.1) = ps'.flatMap (fun p => b!" " ++ p.1) → ps.map (·.2) = ps'.map (·.2) := by
    intro ps
    induction ps with
    | nil =>
      intro ps' _ _ h
      cases ps' with
      | nil => rfl
      | cons p ps' => simp at h
    | cons p ps ih =>
      intro ps' h1 h2 h
      cases ps' with
      | nil => simp at h
      | cons p' ps' =>
        simp only [List.flatMap_cons, List.cons_append, List.nil_append, List.cons.injEq, true_and] at h
        have a := h1 p (by simp)
        have b := h2 p' (by simp)
        obtain ⟨e, e'⟩ := List.append_inj h (by rw [a.1, b.1])
        rw [← e] at b
        simp only [List.map_cons]
        rw [isId_inj a b, ih ps' (fun q hq => h1 q (by simp [hq])) (fun q hq => h2 q (by simp [hq])) e']
  have hh : g.parents = g'.parents := by rw [e3, f3]; exact hp ps ps' e4 f4 h2
  have ho := isId_inj e2 f2
  cases g; cases g'; simp only at hh ho; rw [hh, ho]

theorem file_unique {size : Nat} {ls : List Bytes} {gs gs' : List Graft} {c c' : Int} (h : File size ls gs c) (h' : File size ls gs' c') :
    gs = gs' ∧ c = c' := by
  induction h generalizing gs' c' with
  | done => cases h'; exact ⟨rfl, rfl⟩
  | bad l ls hb =>
    cases h' with
    | bad => exact ⟨rfl, rfl⟩
    | good _ _ g _ _ hg _ => exact absurd hg (hb g)
  | good l ls g gs c hg hf ih =>
    cases h' with
    | bad _ _ hb => exact absurd hg (hb g)
    | good _ _ g' gs' c' hg' hf' =>
      obtain ⟨h1, h2⟩ := ih hf'
      exact ⟨by rw [line_unique hg hg', h1], h2⟩

end Verif.Grafts
