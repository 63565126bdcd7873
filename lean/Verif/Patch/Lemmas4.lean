import Verif.Patch.Lemmas3
/-! # The hunks of a script -/
namespace Verif.Patch
open Spec

/-- the lines of a patch for pieces -/
def emitPieces (ps : List Piece) : List Line := ps.flatMap fun p => emitRecord (originOf p) (textOf p)

theorem emitPieces_append (a b : List Piece) : emitPieces (a ++ b) = emitPieces a ++ emitPieces b := List.flatMap_append

theorem emitPieces_shows : ∀ ps : List Piece, Shows (emitPieces ps) ps := by
  intro ps
  induction ps with
  | nil => exact .nil
  | cons p ps ih =>
    have e : emitPieces (p :: ps) = emitRecord (originOf p) (textOf p) ++ emitPieces ps := by unfold emitPieces; rw [List.flatMap_cons]
    rw [e]
    unfold emitRecord
    have ht : ({ origin := originOf p, buf := textOf p, len := (textOf p).length } : Line).text = .ok (textOf p) := by simp [Line.text]
    by_cases h : 0 < (textOf p).length ∧ (textOf p).getLast? ≠ some c!"\n"
    · rw [if_pos h]
      refine .marked rfl ?_ (fun he => by rw [he] at h; simp at h) h.2 (.inl ht) ih
      cases p <;> rfl
    · rw [if_neg h]
      exact .line rfl ht ih

theorem emitRange_eq (x y z : List Bytes) (o : Origin) (f : Bytes → Piece) (hf : ∀ b, originOf (f b) = o ∧ textOf (f b) = b) :
    emitRange (x ++ y ++ z) o x.length (x.length + y.length) = emitPieces (y.map f) := by
  unfold emitRange emitPieces
  have e : ((x ++ y ++ z).take (x.length + y.length)).drop x.length = y := by
    rw [← List.length_append, List.take_left, List.drop_left]
  rw [e, List.flatMap_map]
  exact List.flatMap_congr fun b _ => by rw [(hf b).1, (hf b).2]

/-- the pieces of a script -/
def piecesOf : List Step → List Piece
  | [] => []
  | s :: ss => s.same.map .keep ++ s.del.map .del ++ s.add.map .add ++ piecesOf ss

theorem scriptOld_append : ∀ (a b : List Step) (t : List Bytes), scriptOld (a ++ b) t = scriptOld a (scriptOld b t) := by
  intro a
  induction a with
  | nil => intros; rfl
  | cons s a ih => intro b t; rw [List.cons_append, scriptOld, scriptOld, ih]

theorem scriptNew_append : ∀ (a b : List Step) (t : List Bytes), scriptNew (a ++ b) t = scriptNew a (scriptNew b t) := by
  intro a
  induction a with
  | nil => intros; rfl
  | cons s a ih => intro b t; rw [List.cons_append, scriptNew, scriptNew, ih]

theorem scriptOld_tail : ∀ (a : List Step) (t : List Bytes), scriptOld a t = scriptOld a [] ++ t := by
  intro a
  induction a with
  | nil => intros; rfl
  | cons s a ih => intro t; rw [scriptOld, scriptOld, ih t, List.append_assoc, List.append_assoc, List.append_assoc]

theorem scriptNew_tail : ∀ (a : List Step) (t : List Bytes), scriptNew a t = scriptNew a [] ++ t := by
  intro a
  induction a with
  | nil => intros; rfl
  | cons s a ih => intro t; rw [scriptNew, scriptNew, ih t, List.append_assoc, List.append_assoc, List.append_assoc]

theorem emitChanges_eq : ∀ (gs : List Step) (a1 a2 r1 r2 : List Bytes),
    emitChanges (a1 ++ scriptOld gs r1) (a2 ++ scriptNew gs r2) a1.length a2.length (changesOf a1.length a2.length gs) = emitPieces (piecesOf gs) := by
  intro gs
  induction gs with
  | nil => intros; rfl
  | cons s gs ih =>
    intro a1 a2 r1 r2
    rw [changesOf, emitChanges, piecesOf, scriptOld, scriptNew]
    dsimp only
    have h1 : emitRange (a2 ++ (s.same ++ s.add ++ scriptNew gs r2)) .context a2.length
        (a2.length + min (a1.length + s.same.length - a1.length) (a2.length + s.same.length - a2.length)) = emitPieces (s.same.map .keep) := by
      have e : a2 ++ (s.same ++ s.add ++ scriptNew gs r2) = a2 ++ s.same ++ (s.add ++ scriptNew gs r2) := by simp [List.append_assoc]
      rw [e, show min (a1.length + s.same.length - a1.length) (a2.length + s.same.length - a2.length) = s.same.length by omega]
      exact emitRange_eq a2 s.same _ .context .keep fun b => ⟨rfl, rfl⟩
    have h2 : emitRange (a1 ++ (s.same ++ s.del ++ scriptOld gs r1)) .deletion (a1.length + s.same.length) (a1.length + s.same.length + s.del.length) =
        emitPieces (s.del.map .del) := by
      have e : a1 ++ (s.same ++ s.del ++ scriptOld gs r1) = (a1 ++ s.same) ++ s.del ++ scriptOld gs r1 := by simp [List.append_assoc]
      rw [e, ← List.length_append]
      exact emitRange_eq (a1 ++ s.same) s.del _ .deletion .del fun b => ⟨rfl, rfl⟩
    have h3 : emitRange (a2 ++ (s.same ++ s.add ++ scriptNew gs r2)) .addition (a2.length + s.same.length) (a2.length + s.same.length + s.add.length) =
        emitPieces (s.add.map .add) := by
      have e : a2 ++ (s.same ++ s.add ++ scriptNew gs r2) = (a2 ++ s.same) ++ s.add ++ scriptNew gs r2 := by simp [List.append_assoc]
      rw [e, ← List.length_append]
      exact emitRange_eq (a2 ++ s.same) s.add _ .addition .add fun b => ⟨rfl, rfl⟩
    have h4 := ih (a1 ++ s.same ++ s.del) (a2 ++ s.same ++ s.add) r1 r2
    have e1 : a1 ++ s.same ++ s.del ++ scriptOld gs r1 = a1 ++ (s.same ++ s.del ++ scriptOld gs r1) := by simp [List.append_assoc]
    have e2 : a2 ++ s.same ++ s.add ++ scriptNew gs r2 = a2 ++ (s.same ++ s.add ++ scriptNew gs r2) := by simp [List.append_assoc]
    rw [e1, e2] at h4
    simp only [List.length_append] at h4
    rw [h1, h2, h3, h4]
    simp only [emitPieces_append]

theorem changesOf_append : ∀ (a b : List Step) (p1 p2 : Nat),
    changesOf p1 p2 (a ++ b) = changesOf p1 p2 a ++ changesOf (p1 + (scriptOld a []).length) (p2 + (scriptNew a []).length) b := by
  intro a
  induction a with
  | nil => intros; rfl
  | cons s a ih =>
    intro b p1 p2
    rw [List.cons_append, changesOf, changesOf, ih, scriptOld, scriptNew]
    simp only [List.length_append, List.cons_append, Nat.add_assoc]

/-- the steps of a hunk -/
theorem getHunk_eq (m : Nat) : ∀ (ss : List Step) (p1 p2 : Nat) (c : Change), c.i1 + c.chg1 = p1 →
    ∃ gs rs, ss = gs ++ rs ∧ getHunk m c (changesOf p1 p2 ss) = (changesOf p1 p2 gs, changesOf (p1 + (scriptOld gs []).length) (p2 + (scriptNew gs []).length) rs) ∧
      (rs = [] ∨ ∃ r rs', rs = r :: rs' ∧ m < r.same.length) := by
  intro ss
  induction ss with
  | nil => intro p1 p2 c _; exact ⟨[], [], rfl, rfl, .inl rfl⟩
  | cons s ss ih =>
    intro p1 p2 c hc
    rw [changesOf, getHunk]
    dsimp only
    rw [hc, Nat.add_sub_cancel_left]
    by_cases hm : s.same.length > m
    · rw [if_pos hm]
      exact ⟨[], s :: ss, rfl, rfl, .inr ⟨s, ss, rfl, hm⟩⟩
    · rw [if_neg hm]
      obtain ⟨gs, rs, e1, e2, e3⟩ := ih (p1 + s.same.length + s.del.length) (p2 + s.same.length + s.add.length)
        { i1 := p1 + s.same.length, chg1 := s.del.length, i2 := p2 + s.same.length, chg2 := s.add.length } rfl
      refine ⟨s :: gs, rs, by rw [e1]; rfl, ?_, e3⟩
      rw [e2, changesOf, scriptOld, scriptNew]
      simp only [List.length_append, Nat.add_assoc]

theorem before_append : ∀ a b : List Piece, before (a ++ b) = before a ++ before b := by
  intro a
  induction a with
  | nil => intro b; rfl
  | cons p a ih => intro b; cases p <;> simp [before, ih]

theorem after_append : ∀ a b : List Piece, after (a ++ b) = after a ++ after b := by
  intro a
  induction a with
  | nil => intro b; rfl
  | cons p a ih => intro b; cases p <;> simp [after, ih]

theorem before_keep (l : List Bytes) : before (l.map .keep) = l := by induction l <;> simp_all [before]
theorem after_keep (l : List Bytes) : after (l.map .keep) = l := by induction l <;> simp_all [after]
theorem before_del (l : List Bytes) : before (l.map .del) = l := by induction l <;> simp_all [before]
theorem after_del (l : List Bytes) : after (l.map .del) = [] := by induction l <;> simp_all [after]
theorem before_add (l : List Bytes) : before (l.map .add) = [] := by induction l <;> simp_all [before]
theorem after_add (l : List Bytes) : after (l.map .add) = l := by induction l <;> simp_all [after]

theorem before_pieces : ∀ gs : List Step, before (piecesOf gs) = scriptOld gs [] := by
  intro gs
  induction gs with
  | nil => rfl
  | cons s gs ih => rw [piecesOf, scriptOld]; simp only [before_append, before_keep, before_del, before_add, ih, List.append_nil]

theorem after_pieces : ∀ gs : List Step, after (piecesOf gs) = scriptNew gs [] := by
  intro gs
  induction gs with
  | nil => rfl
  | cons s gs ih => rw [piecesOf, scriptNew]; simp only [after_append, after_keep, after_del, after_add, ih, List.append_nil]

/-- what follows a hunk and is in both files -/
def follow (rs : List Step) (tail : List Bytes) : List Bytes := match rs with
  | [] => tail
  | r :: _ => r.same

theorem changesOf_last : ∀ (gs : List Step) (p1 p2 : Nat) (h : changesOf p1 p2 gs ≠ []),
    ((changesOf p1 p2 gs).getLast h).i1 + ((changesOf p1 p2 gs).getLast h).chg1 = p1 + (scriptOld gs []).length ∧
    ((changesOf p1 p2 gs).getLast h).i2 + ((changesOf p1 p2 gs).getLast h).chg2 = p2 + (scriptNew gs []).length := by
  intro gs
  induction gs with
  | nil => intro p1 p2 h; exact absurd rfl h
  | cons s gs ih =>
    intro p1 p2 h
    cases gs with
    | nil =>
      simp only [changesOf, List.getLast_singleton, scriptOld, scriptNew, List.append_nil, List.length_append]
      omega
    | cons g gs =>
      have e : changesOf p1 p2 (s :: g :: gs) = { i1 := p1 + s.same.length, chg1 := s.del.length, i2 := p2 + s.same.length, chg2 := s.add.length } ::
          changesOf (p1 + s.same.length + s.del.length) (p2 + s.same.length + s.add.length) (g :: gs) := rfl
      have hne : changesOf (p1 + s.same.length + s.del.length) (p2 + s.same.length + s.add.length) (g :: gs) ≠ [] := by simp [changesOf]
      have := ih (p1 + s.same.length + s.del.length) (p2 + s.same.length + s.add.length) hne
      simp only [e, List.getLast_cons hne]
      rw [this.1, this.2]
      rw [show scriptOld (s :: g :: gs) [] = s.same ++ s.del ++ scriptOld (g :: gs) [] from rfl, show scriptNew (s :: g :: gs) [] = s.same ++ s.add ++ scriptNew (g :: gs) [] from rfl]
      simp only [List.length_append]
      omega

theorem drop_take_range (x y z : List Bytes) (o : Origin) (f : Bytes → Piece) (hf : ∀ b, originOf (f b) = o ∧ textOf (f b) = b) (a b : Nat) (ha : a = x.length) (hb : b = x.length + y.length) :
    emitRange (x ++ y ++ z) o a b = emitPieces (y.map f) := by
  rw [ha, hb]
  exact emitRange_eq x y z o f hf

/-- one hunk: `s` is its first step, `gs` the others, and `rs` and `tail` what follows -/
theorem emitHunk_eq (ctx : Nat) (func : Bytes) (a1 a2 : List Bytes) (s : Step) (gs rs : List Step) (tail : List Bytes)
    (hs : (a1 = [] ∧ a2 = []) ∨ ctx ≤ s.same.length) (hr : rs = [] ∨ ∃ r rs', rs = r :: rs' ∧ ctx ≤ r.same.length)
    (h1 : (a1 ++ scriptOld (s :: (gs ++ rs)) tail).length < 2 ^ 30) (h2 : (a2 ++ scriptNew (s :: (gs ++ rs)) tail).length < 2 ^ 30) :
    ∃ h pieces, emitHunk ctx func (a1 ++ scriptOld (s :: (gs ++ rs)) tail) (a2 ++ scriptNew (s :: (gs ++ rs)) tail)
        { i1 := a1.length + s.same.length, chg1 := s.del.length, i2 := a2.length + s.same.length, chg2 := s.add.length }
        (changesOf (a1.length + s.same.length + s.del.length) (a2.length + s.same.length + s.add.length) gs) = .ok h ∧
      pieces = (s.same.drop (s.same.length - ctx)).map .keep ++ piecesOf ({ s with same := [] } :: gs) ++ ((follow rs tail).take ctx).map .keep ∧
      h.lines = emitPieces pieces ∧ h.oldLines = ((before pieces).length : Int) ∧ h.newLines = ((after pieces).length : Int) ∧
      h.newStart = (a2.length : Int) + ((s.same.length - ctx : Nat) : Int) + (if (after pieces).length ≠ 0 then 1 else 0) ∧
      h.oldStart = (a1.length : Int) + ((s.same.length - ctx : Nat) : Int) + (if (before pieces).length ≠ 0 then 1 else 0) ∧
      ∃ s1 s2, s1 < 2 ^ 30 + 1 ∧ s2 < 2 ^ 30 + 1 ∧ s1 = a1.length + (s.same.length - ctx) + 1 ∧ s2 = a2.length + (s.same.length - ctx) + 1 ∧
        ∃ h0 : Hunk, readHeader (formatHeader s1 (before pieces).length s2 (after pieces).length func) = .ok h0 ∧ h = { h0 with lines := h.lines } := by
  generalize hpc : (s.same.drop (s.same.length - ctx)).map .keep ++ piecesOf ({ s with same := [] } :: gs) ++ ((follow rs tail).take ctx).map .keep = pieces
  -- lengths
  have e1 : a1 ++ scriptOld (s :: (gs ++ rs)) tail = (a1 ++ s.same) ++ scriptOld ({ s with same := [] } :: gs) (scriptOld rs tail) := by
    rw [scriptOld, scriptOld, scriptOld_append]; simp [List.append_assoc]
  have e2 : a2 ++ scriptNew (s :: (gs ++ rs)) tail = (a2 ++ s.same) ++ scriptNew ({ s with same := [] } :: gs) (scriptNew rs tail) := by
    rw [scriptNew, scriptNew, scriptNew_append]; simp [List.append_assoc]
  generalize hold : a1 ++ scriptOld (s :: (gs ++ rs)) tail = old at *
  generalize hnew : a2 ++ scriptNew (s :: (gs ++ rs)) tail = new at *
  have hbl : (before pieces).length = min ctx s.same.length + (scriptOld ({ s with same := [] } :: gs) []).length + min ctx (follow rs tail).length := by
    rw [← hpc]
    simp only [before_append, before_keep, before_pieces, List.length_append, List.length_drop, List.length_take]
    omega
  have hal : (after pieces).length = min ctx s.same.length + (scriptNew ({ s with same := [] } :: gs) []).length + min ctx (follow rs tail).length := by
    rw [← hpc]
    simp only [after_append, after_keep, after_pieces, List.length_append, List.length_drop, List.length_take]
    omega
  have hf1 : ∃ x, scriptOld rs tail = follow rs tail ++ x := by
    cases rs with
    | nil => exact ⟨[], by simp [scriptOld, follow]⟩
    | cons r rs => exact ⟨r.del ++ scriptOld rs tail, by simp [scriptOld, follow]⟩
  have hf2 : ∃ x, scriptNew rs tail = follow rs tail ++ x := by
    cases rs with
    | nil => exact ⟨[], by simp [scriptNew, follow]⟩
    | cons r rs => exact ⟨r.add ++ scriptNew rs tail, by simp [scriptNew, follow]⟩
  obtain ⟨x1, hx1⟩ := hf1
  obtain ⟨x2, hx2⟩ := hf2
  have hfx : x1 = [] ∧ x2 = [] ∨ ctx ≤ (follow rs tail).length := by
    rcases hr with rfl | ⟨r, rs', rfl, hr⟩
    · left
      simp only [scriptOld, scriptNew, follow] at hx1 hx2
      exact ⟨(List.append_cancel_left ((List.append_nil _).trans hx1)).symm, (List.append_cancel_left ((List.append_nil _).trans hx2)).symm⟩
    · exact .inr hr
  have hol : old.length = a1.length + s.same.length + (scriptOld ({ s with same := [] } :: gs) []).length + (follow rs tail).length + x1.length := by
    rw [e1, scriptOld_tail _ (scriptOld rs tail), hx1]
    simp only [List.length_append]; omega
  have hnl : new.length = a2.length + s.same.length + (scriptNew ({ s with same := [] } :: gs) []).length + (follow rs tail).length + x2.length := by
    rw [e2, scriptNew_tail _ (scriptNew rs tail), hx2]
    simp only [List.length_append]; omega
  have hch : ({ i1 := a1.length + s.same.length, chg1 := s.del.length, i2 := a2.length + s.same.length, chg2 := s.add.length } : Change) ::
      changesOf (a1.length + s.same.length + s.del.length) (a2.length + s.same.length + s.add.length) gs =
      changesOf (a1 ++ s.same).length (a2 ++ s.same).length ({ s with same := [] } :: gs) := by
    rw [changesOf]
    simp only [List.length_append, List.length_nil, Nat.add_zero]
  have hlast := changesOf_last ({ s with same := [] } :: gs) (a1 ++ s.same).length (a2 ++ s.same).length (by simp [changesOf])
  simp only [List.length_append] at hlast
  unfold emitHunk
  dsimp only
  simp only [hch, List.length_append]
  rw [hlast.1, hlast.2]
  have hlctx : min (min ctx (old.length - (a1.length + s.same.length + (scriptOld ({ s with same := [] } :: gs) []).length)))
      (new.length - (a2.length + s.same.length + (scriptNew ({ s with same := [] } :: gs) []).length)) = min ctx (follow rs tail).length := by
    rw [hol, hnl]
    rcases hfx with ⟨rfl, rfl⟩ | h
    · simp only [List.length_nil]; omega
    · omega
  rw [hlctx]
  have hpre : a1.length + s.same.length - ctx = a1.length + (s.same.length - ctx) ∧ a2.length + s.same.length - ctx = a2.length + (s.same.length - ctx) := by
    rcases hs with ⟨rfl, rfl⟩ | h
    · simp
    · omega
  have hc1 : a1.length + s.same.length + (scriptOld ({ s with same := [] } :: gs) []).length + min ctx (follow rs tail).length - (a1.length + s.same.length - ctx) = (before pieces).length := by
    rw [hpre.1, hbl]; omega
  have hc2 : a2.length + s.same.length + (scriptNew ({ s with same := [] } :: gs) []).length + min ctx (follow rs tail).length - (a2.length + s.same.length - ctx) = (after pieces).length := by
    rw [hpre.2, hal]; omega
  rw [hc1, hc2, hpre.1, hpre.2]
  obtain ⟨header, hread, _⟩ := readHeader_eq (s1 := a1.length + (s.same.length - ctx) + 1) (c1 := (before pieces).length) (s2 := a2.length + (s.same.length - ctx) + 1)
    (c2 := (after pieces).length) func (by omega) (by omega) (by omega) (by omega)
  rw [hread, Res.bind_ok]
  refine ⟨_, pieces, rfl, rfl, ?_, rfl, rfl, ?_, ?_, _, _, by omega, by omega, rfl, rfl, _, hread, rfl⟩
  · dsimp only
    have g1 : emitRange new .context (a2.length + (s.same.length - ctx)) (a2.length + s.same.length) = emitPieces ((s.same.drop (s.same.length - ctx)).map .keep) := by
      have e3 : new = (a2 ++ s.same.take (s.same.length - ctx)) ++ s.same.drop (s.same.length - ctx) ++ scriptNew ({ s with same := [] } :: gs) (scriptNew rs tail) := by
        rw [e2, List.append_assoc a2 (s.same.take _), List.take_append_drop]
      rw [e3]
      exact drop_take_range _ _ _ .context .keep (fun b => ⟨rfl, rfl⟩) _ _ (by simp) (by simp <;> omega)
    have g2 := emitChanges_eq ({ s with same := [] } :: gs) (a1 ++ s.same) (a2 ++ s.same) (scriptOld rs tail) (scriptNew rs tail)
    rw [← e1, ← e2] at g2
    simp only [List.length_append] at g2
    have g3 : emitRange new .context (a2.length + s.same.length + (scriptNew ({ s with same := [] } :: gs) []).length)
        (a2.length + s.same.length + (scriptNew ({ s with same := [] } :: gs) []).length + min ctx (follow rs tail).length) = emitPieces (((follow rs tail).take ctx).map .keep) := by
      have e3 : new = (a2 ++ s.same ++ scriptNew ({ s with same := [] } :: gs) []) ++ (follow rs tail).take ctx ++ ((follow rs tail).drop ctx ++ x2) := by
        rw [e2, scriptNew_tail _ (scriptNew rs tail), hx2]
        conv => lhs; rw [← List.take_append_drop ctx (follow rs tail)]
        simp only [List.append_assoc]
      rw [e3]
      exact drop_take_range _ _ _ .context .keep (fun b => ⟨rfl, rfl⟩) _ _ (by simp; omega) (by simp; omega)
    rw [g1, g2, g3, ← emitPieces_append, ← emitPieces_append, hpc]
  · dsimp only
    split <;> push_cast <;> omega
  · dsimp only
    split <;> push_cast <;> omega

end Verif.Patch
