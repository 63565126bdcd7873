import Verif.Patch.Lemmas4
/-! # All hunks of a script -/
namespace Verif.Patch
open Spec

/-- a hunk made of pieces, in files of at most `n` lines; `F` holds of the lines of functions -/
def Made (F : Bytes → Prop) (n : Nat) (p : Part) (h : Hunk) : Prop :=
  h.lines = emitPieces p.pieces ∧ ∃ s1 s2 func h0, s1 ≤ n + 1 ∧ s2 ≤ n + 1 ∧ 1 ≤ s1 ∧ 1 ≤ s2 ∧ (before p.pieces).length ≤ n ∧ (after p.pieces).length ≤ n ∧ F func ∧
    readHeader (formatHeader s1 (before p.pieces).length s2 (after p.pieces).length func) = .ok h0 ∧ h = { h0 with lines := h.lines }

/-- a list of hunks made of parts -/
inductive AllMade (F : Bytes → Prop) (n : Nat) : List Part → List Hunk → Prop
  | nil : AllMade F n [] []
  | cons {p ps h hs} : Made F n p h → AllMade F n ps hs → AllMade F n (p :: ps) (h :: hs)

/-- nothing of the old file follows the last added line of a hunk if nothing of the new file does -/
def Tidy : List Piece → Prop
  | [] => True
  | .add _ :: ps => (after ps = [] → before ps = []) ∧ Tidy ps
  | _ :: ps => Tidy ps

theorem tidy_keep (l : List Bytes) (r : List Piece) (h : Tidy r) : Tidy (l.map .keep ++ r) := by
  induction l with
  | nil => exact h
  | cons x l ih => exact ih

theorem tidy_del (l : List Bytes) (r : List Piece) (h : Tidy r) : Tidy (l.map .del ++ r) := by
  induction l with
  | nil => exact h
  | cons x l ih => exact ih

theorem tidy_add (l : List Bytes) (r : List Piece) (h : Tidy r) (hz : after r = [] → before r = []) : Tidy (l.map .add ++ r) := by
  induction l with
  | nil => exact h
  | cons x l ih =>
    refine ⟨fun (ha : after (l.map .add ++ r) = []) => ?_, ih⟩
    show before (l.map .add ++ r) = []
    rw [after_append, after_add, List.append_eq_nil_iff] at ha
    rw [before_append, before_add, List.nil_append]
    exact hz ha.2

theorem tidy_pieces (k : List Bytes) : ∀ gs : List Step, (∀ s ∈ gs, s.same ≠ []) → Tidy (piecesOf gs ++ k.map .keep) ∧ (after (piecesOf gs ++ k.map .keep) = [] → before (piecesOf gs ++ k.map .keep) = []) := by
  intro gs
  induction gs with
  | nil =>
    intro _
    refine ⟨?_, fun h => ?_⟩
    · have := tidy_keep k [] trivial
      rwa [List.append_nil] at this
    · rw [piecesOf, List.nil_append, after_keep] at h
      rw [piecesOf, List.nil_append, before_keep, h]
  | cons s gs ih =>
    intro hs
    obtain ⟨h1, h2⟩ := ih fun x hx => hs x (List.mem_cons_of_mem _ hx)
    rw [piecesOf]
    simp only [List.append_assoc]
    refine ⟨tidy_keep _ _ (tidy_del _ _ (tidy_add _ _ h1 h2)), fun h => ?_⟩
    rw [after_append, after_keep, List.append_eq_nil_iff] at h
    exact absurd h.1 (hs s List.mem_cons_self)

theorem tidy_hunk (a k : List Bytes) (s : Step) (gs : List Step) (h : ∀ s ∈ gs, s.same ≠ []) : Tidy (a.map .keep ++ piecesOf ({ s with same := [] } :: gs) ++ k.map .keep) := by
  obtain ⟨h1, h2⟩ := tidy_pieces k gs h
  rw [piecesOf]
  simp only [List.append_assoc, List.map_nil, List.nil_append]
  exact tidy_keep _ _ (tidy_del _ _ (tidy_add _ _ h1 h2))

theorem emitDiff_eq {ctx inter n : Nat} {funcs : Change → Bytes} {F : Bytes → Prop} (hF : ∀ c, F (funcs c)) (hn : n < 2 ^ 30) (tail : List Bytes) :
    ∀ (fuel : Nat) (steps : List Step) (a1 a2 : List Bytes) (q : Nat), steps.length ≤ fuel → q ≤ (follow steps tail).length →
      ((a1 = [] ∧ a2 = [] ∧ q = 0) ∨ ∀ s ss, steps = s :: ss → q + ctx ≤ s.same.length ∧ 2 * ctx < s.same.length) → (1 ≤ ctx ∨ ∀ s ∈ steps, s.add ≠ []) →
      (a1 ++ scriptOld steps tail).length ≤ n → (a2 ++ scriptNew steps tail).length ≤ n →
      ∃ hs parts tail', emitDiff ctx inter funcs (a1 ++ scriptOld steps tail) (a2 ++ scriptNew steps tail) (changesOf a1.length a2.length steps) = .ok hs ∧
        Describes (a1.length + q) (a2.length + q) parts hs ∧ oldOf parts tail' = (scriptOld steps tail).drop q ∧ newOf parts tail' = (scriptNew steps tail).drop q ∧
        AllMade F n parts hs ∧ parts.length ≤ steps.length ∧ (∀ p ∈ parts, p.pieces ≠ [] ∨ ∃ s ∈ steps, s.del = [] ∧ s.add = []) ∧
        ((∀ s ∈ steps.tail, s.same ≠ []) → ∀ p ∈ parts, Tidy p.pieces) := by
  intro fuel
  induction fuel with
  | zero =>
    intro steps a1 a2 q hl _ _ _ _ _
    have : steps = [] := List.length_eq_zero_iff.mp (by omega)
    subst this
    exact ⟨[], [], tail.drop q, by simp [changesOf, emitDiff], .nil, rfl, rfl, .nil, Nat.le_refl _, by simp, by simp⟩
  | succ fuel ih =>
    intro steps a1 a2 q hl hq hpos hadd h1 h2
    cases steps with
    | nil => exact ⟨[], [], tail.drop q, by simp [changesOf, emitDiff], .nil, rfl, rfl, .nil, Nat.le_refl _, by simp, by simp⟩
    | cons s ss =>
      rw [changesOf, emitDiff]
      obtain ⟨gs, rs, e1, e2, e3⟩ := getHunk_eq (2 * ctx + inter) ss (a1.length + s.same.length + s.del.length) (a2.length + s.same.length + s.add.length)
        { i1 := a1.length + s.same.length, chg1 := s.del.length, i2 := a2.length + s.same.length, chg2 := s.add.length } rfl
      rw [e2]
      dsimp only
      subst e1
      have hs : (a1 = [] ∧ a2 = []) ∨ ctx ≤ s.same.length := by
        rcases hpos with h | h
        · exact .inl ⟨h.1, h.2.1⟩
        · have := h s _ rfl; exact .inr (by omega)
      have hr : rs = [] ∨ ∃ r rs', rs = r :: rs' ∧ ctx ≤ r.same.length := by
        rcases e3 with h | ⟨r, rs', h, h'⟩
        · exact .inl h
        · exact .inr ⟨r, rs', h, by omega⟩
      obtain ⟨h, pieces, g1, g2, g3, g4, g5, g6, g7, s1, s2, g8, g9, g10, g11, h0, g12, g13⟩ := emitHunk_eq ctx
        (funcs { i1 := a1.length + s.same.length, chg1 := s.del.length, i2 := a2.length + s.same.length, chg2 := s.add.length }) a1 a2 s gs rs tail hs hr (by omega) (by omega)
      rw [g1, Res.bind_ok]
      -- the rest
      have f1 : a1 ++ scriptOld (s :: (gs ++ rs)) tail = (a1 ++ (s.same ++ s.del ++ scriptOld gs [])) ++ scriptOld rs tail := by
        rw [scriptOld, scriptOld_append, scriptOld_tail gs (scriptOld rs tail)]; simp only [List.append_assoc]
      have f2 : a2 ++ scriptNew (s :: (gs ++ rs)) tail = (a2 ++ (s.same ++ s.add ++ scriptNew gs [])) ++ scriptNew rs tail := by
        rw [scriptNew, scriptNew_append, scriptNew_tail gs (scriptNew rs tail)]; simp only [List.append_assoc]
      have hfl : ∀ r rs', rs = r :: rs' → ctx ≤ (follow rs tail).length := by
        intro r rs' he
        rcases hr with h | ⟨r', rs'', h, h'⟩
        · rw [h] at he; cases he
        · rw [h]; exact h'
      obtain ⟨hs', parts, tail', k1, k2, k3, k4, k5, k6, k7, k8⟩ := ih rs (a1 ++ (s.same ++ s.del ++ scriptOld gs [])) (a2 ++ (s.same ++ s.add ++ scriptNew gs [])) (min ctx (follow rs tail).length)
        (by simp at hl; omega) (Nat.min_le_right _ _)
        (.inr fun r rs' he => by
          rcases e3 with h | ⟨r', rs'', h, h'⟩
          · rw [h] at he; cases he
          · rw [h] at he
            have := (List.cons.inj he).1
            subst this
            omega)
        (by
          rcases hadd with h | h
          · exact .inl h
          · exact .inr fun x hx => h x (List.mem_cons_of_mem _ (List.mem_append_right _ hx)))
        (by rw [← f1]; exact h1) (by rw [← f2]; exact h2)
      rw [← f1, ← f2] at k1
      simp only [List.length_append] at k1
      have p1 : a1.length + (s.same.length + s.del.length + (scriptOld gs []).length) = a1.length + s.same.length + s.del.length + (scriptOld gs []).length := by omega
      have p2 : a2.length + (s.same.length + s.add.length + (scriptNew gs []).length) = a2.length + s.same.length + s.add.length + (scriptNew gs []).length := by omega
      rw [p1, p2] at k1
      rw [k1, Res.bind_ok]
      -- lengths
      have hsq : q ≤ s.same.length - ctx := by
        rcases hpos with h | h
        · omega
        · have := h s _ rfl; omega
      have hqs : q ≤ s.same.length := by omega
      have hb : before pieces = s.same.drop (s.same.length - ctx) ++ (s.del ++ scriptOld gs []) ++ (follow rs tail).take ctx := by
        rw [g2]
        simp only [before_append, before_keep, before_pieces, scriptOld, List.nil_append]
      have ha : after pieces = s.same.drop (s.same.length - ctx) ++ (s.add ++ scriptNew gs []) ++ (follow rs tail).take ctx := by
        rw [g2]
        simp only [after_append, after_keep, after_pieces, scriptNew, List.nil_append]
      have hgap : ((s.same.take (s.same.length - ctx)).drop q).length = s.same.length - ctx - q := by
        rw [List.length_drop, List.length_take]; omega
      have hjoin : (s.same.take (s.same.length - ctx)).drop q ++ s.same.drop (s.same.length - ctx) = s.same.drop q := by
        conv => rhs; rw [← List.take_append_drop (s.same.length - ctx) s.same]
        rw [List.drop_append_of_le_length (by rw [List.length_take]; omega)]
      have hbn : (before pieces).length ≤ n ∧ (after pieces).length ≤ n := by
        have q1 : (follow rs tail).length ≤ (scriptOld rs tail).length ∧ (follow rs tail).length ≤ (scriptNew rs tail).length := by
          cases rs with
          | nil => exact ⟨Nat.le_refl _, Nat.le_refl _⟩
          | cons r rs => simp only [follow, scriptOld, scriptNew, List.length_append]; omega
        rw [f1] at h1
        rw [f2] at h2
        simp only [List.length_append] at h1 h2
        rw [hb, ha]
        simp only [List.length_append, List.length_drop, List.length_take]
        omega
      refine ⟨h :: hs', { gap := (s.same.take (s.same.length - ctx)).drop q, pieces := pieces } :: parts, tail', rfl, ?_, ?_, ?_, ?_, ?_, ?_, ?_⟩
      · refine .cons (by dsimp only; rw [g3]; exact emitPieces_shows pieces) g4 g5 ?_ ?_
        · dsimp only
          rw [hgap, g6]
          by_cases hz : (after pieces).length ≠ 0
          · left
            rw [if_pos hz]
            push_cast
            omega
          · right
            rw [if_neg hz]
            have hz : (after pieces).length = 0 := by omega
            rw [ha] at hz
            simp only [List.length_append, List.length_drop] at hz
            have hctx : 1 ≤ ctx := by
              rcases hadd with h | h
              · exact h
              · have := h s List.mem_cons_self
                have : 0 < s.add.length := List.length_pos_iff.mpr this
                omega
            have hs0 : s.same.length = 0 := by omega
            rcases hpos with ⟨rfl, rfl, rfl⟩ | hp
            · simp [hs0]
            · have := hp s _ rfl
              omega
        · dsimp only
          rw [hgap, hb, ha]
          have z1 : a1.length + q + (s.same.length - ctx - q) + (s.same.drop (s.same.length - ctx) ++ (s.del ++ scriptOld gs []) ++ (follow rs tail).take ctx).length =
              (a1 ++ (s.same ++ s.del ++ scriptOld gs [])).length + min ctx (follow rs tail).length := by
            simp only [List.length_append, List.length_drop, List.length_take]; omega
          have z2 : a2.length + q + (s.same.length - ctx - q) + (s.same.drop (s.same.length - ctx) ++ (s.add ++ scriptNew gs []) ++ (follow rs tail).take ctx).length =
              (a2 ++ (s.same ++ s.add ++ scriptNew gs [])).length + min ctx (follow rs tail).length := by
            simp only [List.length_append, List.length_drop, List.length_take]; omega
          rw [z1, z2]
          exact k2
      · rw [oldOf]
        dsimp only
        rw [k3, hb, scriptOld, scriptOld_append, scriptOld_tail gs (scriptOld rs tail)]
        have : (follow rs tail).take ctx ++ (scriptOld rs tail).drop (min ctx (follow rs tail).length) = scriptOld rs tail := by
          have q1 : ∃ x, scriptOld rs tail = follow rs tail ++ x := by
            cases rs with
            | nil => exact ⟨[], by simp [scriptOld, follow]⟩
            | cons r rs => exact ⟨r.del ++ scriptOld rs tail, by simp [scriptOld, follow]⟩
          obtain ⟨x, hx⟩ := q1
          rw [hx, List.drop_append_of_le_length (Nat.min_le_right _ _), ← List.append_assoc]
          congr 1
          by_cases hc : ctx ≤ (follow rs tail).length
          · rw [Nat.min_eq_left hc, List.take_append_drop]
          · rw [Nat.min_eq_right (by omega), List.drop_length, List.take_of_length_le (by omega), List.append_nil]
        rw [List.append_assoc s.same, List.drop_append_of_le_length hqs, ← hjoin]
        conv => rhs; rw [← this]
        simp only [List.append_assoc]
      · rw [newOf]
        dsimp only
        rw [k4, ha, scriptNew, scriptNew_append, scriptNew_tail gs (scriptNew rs tail)]
        have : (follow rs tail).take ctx ++ (scriptNew rs tail).drop (min ctx (follow rs tail).length) = scriptNew rs tail := by
          have q1 : ∃ x, scriptNew rs tail = follow rs tail ++ x := by
            cases rs with
            | nil => exact ⟨[], by simp [scriptNew, follow]⟩
            | cons r rs => exact ⟨r.add ++ scriptNew rs tail, by simp [scriptNew, follow]⟩
          obtain ⟨x, hx⟩ := q1
          rw [hx, List.drop_append_of_le_length (Nat.min_le_right _ _), ← List.append_assoc]
          congr 1
          by_cases hc : ctx ≤ (follow rs tail).length
          · rw [Nat.min_eq_left hc, List.take_append_drop]
          · rw [Nat.min_eq_right (by omega), List.drop_length, List.take_of_length_le (by omega), List.append_nil]
        rw [List.append_assoc s.same, List.drop_append_of_le_length hqs, ← hjoin]
        conv => rhs; rw [← this]
        simp only [List.append_assoc]
      · refine .cons ⟨g3, s1, s2, _, h0, ?_, ?_, by omega, by omega, hbn.1, hbn.2, hF _, g12, g13⟩ k5
        · rw [g10]
          have := h1
          rw [f1] at this
          simp only [List.length_append] at this
          omega
        · rw [g11]
          have := h2
          rw [f2] at this
          simp only [List.length_append] at this
          omega
      · simp only [List.length_cons, List.length_append]
        omega
      · intro p hp
        rcases List.mem_cons.mp hp with rfl | hp
        · by_cases hd : s.del = [] ∧ s.add = []
          · exact .inr ⟨s, List.mem_cons_self, hd⟩
          · left
            dsimp only
            intro he
            have e1 := hb
            have e2 := ha
            rw [he] at e1 e2
            have e1 := congrArg List.length e1
            have e2 := congrArg List.length e2
            simp only [before, after, List.length_nil, List.length_append] at e1 e2
            exact hd ⟨List.length_eq_zero_iff.mp (by omega), List.length_eq_zero_iff.mp (by omega)⟩
        · rcases k7 p hp with h | ⟨x, hx, h⟩
          · exact .inl h
          · exact .inr ⟨x, List.mem_cons_of_mem _ (List.mem_append_right _ hx), h⟩
      · intro ht p hp
        rw [List.tail_cons] at ht
        rcases List.mem_cons.mp hp with rfl | hp
        · dsimp only
          rw [g2]
          exact tidy_hunk _ _ _ _ fun x hx => ht x (List.mem_append_left _ hx)
        · exact k8 (fun x hx => ht x (List.mem_append_right _ (List.mem_of_mem_tail hx))) p hp

end Verif.Patch
