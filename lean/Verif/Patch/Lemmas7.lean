import Verif.Patch.Lemmas6
/-! # Reading the lines of a hunk -/
namespace Verif.Patch
open Spec

/-- the character before a line -/
def signOf : Piece → UInt8
  | .keep _ => c!" "
  | .del _ => c!"-"
  | .add _ => c!"+"

/-- the marker as a line of its own -/
def marker : Bytes := b!"\\ No newline at end of file\n"

/-- a piece as text -/
def printed (p : Piece) : Bytes := signOf p :: textOf p ++ (if (textOf p).getLast? = some c!"\n" then [] else noNewline)

/-- pieces that can be read again: lines without NUL bytes, and nothing of the old file after a line without a newline -/
def Good : List Piece → Prop
  | [] => True
  | p :: ps => textOf p ≠ [] ∧ c!"\n" ∉ (textOf p).dropLast ∧ 0 ∉ textOf p ∧ ((textOf p).getLast? ≠ some c!"\n" → before ps = []) ∧ Good ps

theorem printLines_append : ∀ (a b : List Line) (x y : Bytes), printLines a = .ok x → printLines b = .ok y → printLines (a ++ b) = .ok (x ++ y) := by
  intro a
  induction a with
  | nil => intro b x y hx hy; cases hx; exact hy
  | cons l a ih =>
    intro b x y hx hy
    rw [printLines] at hx
    cases e : printLine l with
    | ok u =>
      rw [e, Res.bind_ok] at hx
      cases e2 : printLines a with
      | ok v =>
        rw [e2, Res.bind_ok] at hx
        have hx := Res.ok.inj hx
        rw [List.cons_append, printLines, e, Res.bind_ok, ih b v y e2 hy, Res.bind_ok, ← hx, List.append_assoc]
      | err _ => rw [e2] at hx; cases hx
      | ub => rw [e2] at hx; cases hx
    | err _ => rw [e] at hx; cases hx
    | ub => rw [e] at hx; cases hx

theorem printLines_record (p : Piece) (hne : textOf p ≠ []) : printLines (emitRecord (originOf p) (textOf p)) = .ok (printed p) := by
  unfold emitRecord
  have ht : ({ origin := originOf p, buf := textOf p, len := (textOf p).length } : Line).text = .ok (textOf p) := by simp [Line.text]
  have h1 : printLine { origin := originOf p, buf := textOf p, len := (textOf p).length } = .ok (signOf p :: textOf p) := by
    unfold printLine
    rw [ht, Res.bind_ok]
    cases p <;> rfl
  have hlen : 0 < (textOf p).length := List.length_pos_iff.mpr hne
  unfold printed
  by_cases h : (textOf p).getLast? = some c!"\n"
  · rw [if_neg (by simp [h]), if_pos h, printLines, h1, Res.bind_ok, printLines, Res.bind_ok]
  · rw [if_pos ⟨hlen, h⟩, if_neg h, printLines, h1, Res.bind_ok, printLines]
    have h2 : printLine { origin := (if originOf p = .addition then .delEof else if originOf p = .deletion then .addEof else .contextEof), buf := noNewline, len := noNewline.length } = .ok noNewline := by
      cases p <;> rfl
    rw [h2, Res.bind_ok, printLines, Res.bind_ok, Res.bind_ok, List.append_nil]

theorem printLines_pieces : ∀ ps : List Piece, Good ps → printLines (emitPieces ps) = .ok (ps.flatMap printed) := by
  intro ps
  induction ps with
  | nil => intro _; rfl
  | cons p ps ih =>
    intro hg
    have e : emitPieces (p :: ps) = emitRecord (originOf p) (textOf p) ++ emitPieces ps := by unfold emitPieces; rw [List.flatMap_cons]
    rw [e, List.flatMap_cons]
    exact printLines_append _ _ _ _ (printLines_record p hg.1) (ih hg.2.2.2.2)

theorem dupLine_text {o : Origin} {t : Bytes} (h : 0 ∉ t) : (dupLine o t).text = .ok t := by
  unfold dupLine Line.text
  have e : t.takeWhile (fun x => decide (x ≠ 0)) = t := by
    have := takeWhile_append_stop (fun x => decide (x ≠ 0)) t [] (fun x hx => by
      simp only [decide_eq_true_eq]
      rintro rfl
      exact h hx) (by simp)
    rwa [List.append_nil] at this
  dsimp only
  rw [e, if_pos (by simp), List.take_left]

/-- the line of a piece -/
theorem piece_line (p : Piece) (T : Bytes) (h1 : textOf p ≠ []) (h2 : c!"\n" ∉ (textOf p).dropLast) :
    ((textOf p).getLast? = some c!"\n" → lineOf (printed p ++ T) = signOf p :: textOf p ∧ afterLine (printed p ++ T) = T) ∧
    ((textOf p).getLast? ≠ some c!"\n" → lineOf (printed p ++ T) = signOf p :: (textOf p ++ b!"\n") ∧ afterLine (printed p ++ T) = marker ++ T) := by
  have hs : signOf p ≠ c!"\n" := by cases p <;> simp [signOf]
  constructor
  · intro h
    obtain ⟨b, hb⟩ : ∃ b, textOf p = b ++ b!"\n" := by
      obtain ⟨b, hb⟩ := List.getLast?_eq_some_iff.mp h
      exact ⟨b, hb⟩
    have hnb : c!"\n" ∉ signOf p :: b := by
      rw [hb] at h2
      rw [List.dropLast_concat] at h2
      simp only [List.mem_cons, not_or]
      exact ⟨fun e => hs e.symm, h2⟩
    have e : printed p ++ T = (signOf p :: b) ++ (b!"\n" ++ T) := by
      unfold printed
      rw [if_pos h, hb]
      simp
    rw [e, lineOf_plain _ _ hnb, afterLine_plain _ _ hnb, lineOf_nl, afterLine_nl, hb]
    exact ⟨rfl, rfl⟩
  · intro h
    have hnb : c!"\n" ∉ signOf p :: textOf p := by
      simp only [List.mem_cons, not_or]
      refine ⟨fun e => hs e.symm, fun hm => ?_⟩
      obtain ⟨b, x, hb⟩ : ∃ b x, textOf p = b ++ [x] := ⟨(textOf p).dropLast, (textOf p).getLast h1, (List.dropLast_append_getLast h1).symm⟩
      rw [hb] at h2 h hm
      rw [List.dropLast_concat] at h2
      rcases List.mem_append.mp hm with hm | hm
      · exact h2 hm
      · rw [List.mem_singleton.mp hm] at h
        simp at h
    have e : printed p ++ T = (signOf p :: textOf p) ++ (b!"\n" ++ (marker ++ T)) := by
      unfold printed
      rw [if_neg h]
      simp [noNewline, marker]
    rw [e, lineOf_plain _ _ hnb, afterLine_plain _ _ hnb, lineOf_nl, afterLine_nl]
    exact ⟨rfl, rfl⟩

theorem marker_line (T : Bytes) : lineOf (marker ++ T) = marker ∧ afterLine (marker ++ T) = T := by
  have e : marker = b!"\\ No newline at end of file" ++ b!"\n" := rfl
  rw [e, List.append_assoc, lineOf_plain _ _ (by decide), afterLine_plain _ _ (by decide), lineOf_nl, afterLine_nl]
  exact ⟨rfl, rfl⟩

theorem not_header {c : UInt8} {r : Bytes} (h : c ≠ c!"@") : contains (c :: r) b!"@@ -" = false := by
  cases hc : contains (c :: r) b!"@@ -" with
  | false => rfl
  | true =>
    obtain ⟨t, ht⟩ := contains_head hc
    simp only [List.cons_append, List.cons.injEq] at ht
    exact absurd ht.1.symm h

theorem parseBody_eq (h : Hunk) (h1 : 0 ≤ h.oldStart) (h2 : 0 ≤ h.newStart) (h3 : 0 ≤ h.oldLines) (h4 : 0 ≤ h.newLines) (h5 : h.oldStart + h.oldLines < 2 ^ 31) (h6 : h.newStart + h.newLines < 2 ^ 31) (T : Bytes) :
    ∀ (ps : List Piece) (fuel : Nat) (last : Option Origin), Good ps → (ps.flatMap printed ++ T).length ≤ fuel → ((before ps).length : Int) ≤ h.oldLines → ((after ps).length : Int) ≤ h.newLines →
      ∃ ls last' rest, parseBody h fuel (ps.flatMap printed ++ T) (before ps).length (after ps).length last = .ok (ls, (0, 0), last', rest) ∧
        ((rest = T ∧ Shows ls ps) ∨ (rest = marker ++ T ∧ ls ≠ [] ∧ ∀ m : Line, isEof m.origin = true → Shows (ls ++ [m]) ps)) := by
  intro ps
  induction ps with
  | nil =>
    intro fuel last _ _ _ _
    refine ⟨[], last, T, ?_, .inl ⟨rfl, .nil⟩⟩
    cases fuel with
    | zero => rfl
    | succ fuel =>
      rw [parseBody, if_neg]
      · rfl
      · simp [before, after]
  | cons p ps ih =>
    intro fuel last hg hf hb ha
    obtain ⟨g1, g2, g3, g4, g5⟩ := hg
    rw [List.flatMap_cons, List.append_assoc] at hf ⊢
    have hpl : 2 ≤ (printed p).length := by
      have := List.length_pos_iff.mpr g1
      unfold printed
      simp only [List.cons_append, List.length_cons, List.length_append]
      omega
    have hpc : ∃ r, printed p ++ (ps.flatMap printed ++ T) = signOf p :: r := by
      unfold printed
      exact ⟨_, by rw [List.cons_append, List.cons_append]⟩
    obtain ⟨r, hr⟩ := hpc
    have hcount : ((before (p :: ps)).length : Int) ≠ 0 ∨ ((after (p :: ps)).length : Int) ≠ 0 := by
      cases p <;> simp only [before, after, List.length_cons] <;> omega
    have hsign : signOf p ≠ c!"@" := by cases p <;> simp [signOf]
    have hend : (lineOf (printed p ++ (ps.flatMap printed ++ T))).getLast? = some c!"\n" := by
      obtain ⟨a, b⟩ := piece_line p (ps.flatMap printed ++ T) g1 g2
      by_cases hl : (textOf p).getLast? = some c!"\n"
      · rw [(a hl).1, List.getLast?_cons, hl]; rfl
      · rw [(b hl).1, List.getLast?_cons]; simp
    -- one step
    have step : ∀ fuel last, parseBody h (fuel + 1) (printed p ++ (ps.flatMap printed ++ T)) (before (p :: ps)).length (after (p :: ps)).length last =
        parseBody h fuel (afterLine (printed p ++ (ps.flatMap printed ++ T))) (before ps).length (after ps).length (some (originOf p)) >>= fun r =>
          .ok (dupLine (originOf p) ((lineOf (printed p ++ (ps.flatMap printed ++ T))).drop 1) :: r.1, r.2) := by
      intro fuel last
      rw [parseBody, if_pos ⟨by rw [List.length_append]; omega, hcount, by rw [hr]; exact not_header hsign⟩, if_neg, if_neg (by rw [hend]; simp)]
      · have hhd : (printed p ++ (ps.flatMap printed ++ T)).headD 0 = signOf p := by rw [hr]; rfl
        dsimp only
        rw [hhd]
        cases p with
        | keep x =>
          rw [show signOf (.keep x) = c!" " from rfl, if_neg (by decide), if_pos rfl, Res.bind_ok]
          simp only [before, after, List.length_cons, originOf]
          rw [show ((((before ps).length + 1 : Nat) : Int) - 1) = ((before ps).length : Int) from by omega, show ((((after ps).length + 1 : Nat) : Int) - 1) = ((after ps).length : Int) from by omega]
        | del x =>
          rw [show signOf (.del x) = c!"-" from rfl, if_neg (by decide), if_neg (by decide), if_pos rfl, Res.bind_ok]
          simp only [before, after, List.length_cons, originOf]
          rw [show ((((before ps).length + 1 : Nat) : Int) - 1) = ((before ps).length : Int) from by omega]
        | add x =>
          rw [show signOf (.add x) = c!"+" from rfl, if_neg (by decide), if_neg (by decide), if_neg (by decide), if_pos rfl, Res.bind_ok]
          simp only [before, after, List.length_cons, originOf]
          rw [show ((((after ps).length + 1 : Nat) : Int) - 1) = ((after ps).length : Int) from by omega]
      · unfold noInt
        simp only [decide_eq_true_eq, not_or]
        omega
    have hb' : ((before ps).length : Int) ≤ h.oldLines := by
      cases p <;> simp only [before, List.length_cons] at hb <;> omega
    have ha' : ((after ps).length : Int) ≤ h.newLines := by
      cases p <;> simp only [after, List.length_cons] at ha <;> omega
    cases fuel with
    | zero => rw [List.length_append] at hf; omega
    | succ fuel =>
      rw [step]
      by_cases hl : (textOf p).getLast? = some c!"\n"
      · obtain ⟨e1, e2⟩ := (piece_line p (ps.flatMap printed ++ T) g1 g2).1 hl
        rw [e1, e2]
        obtain ⟨ls, last', rest, e, hc⟩ := ih fuel (some (originOf p)) g5 (by rw [List.length_append] at hf; omega) hb' ha'
        rw [e, Res.bind_ok, List.drop_succ_cons, List.drop_zero]
        refine ⟨_, last', rest, rfl, ?_⟩
        rcases hc with ⟨hc1, hc2⟩ | ⟨hc1, hc2, hc3⟩
        · exact .inl ⟨hc1, .line rfl (dupLine_text g3) hc2⟩
        · exact .inr ⟨hc1, by simp, fun m hm => .line rfl (dupLine_text g3) (hc3 m hm)⟩
      · obtain ⟨e1, e2⟩ := (piece_line p (ps.flatMap printed ++ T) g1 g2).2 hl
        rw [e1, e2, List.drop_succ_cons, List.drop_zero]
        have g3' : (0 : UInt8) ∉ textOf p ++ b!"\n" := by
          intro hm
          rcases List.mem_append.mp hm with hm | hm
          · exact g3 hm
          · revert hm; decide
        have hb0 := g4 hl
        cases ps with
        | nil =>
          have e0 : parseBody h fuel (marker ++ ([].flatMap printed ++ T)) (before []).length (after []).length (some (originOf p)) = .ok ([], (0, 0), some (originOf p), marker ++ T) := by
            cases fuel with
            | zero => rfl
            | succ fuel =>
              rw [parseBody, if_neg]
              · rfl
              · simp [before, after]
          rw [e0, Res.bind_ok]
          exact ⟨_, _, _, rfl, .inr ⟨rfl, by simp, fun m hm => .marked rfl hm g1 hl (.inr (dupLine_text g3')) .nil⟩⟩
        | cons q qs =>
          have hq : (after (q :: qs)).length ≠ 0 := by
            cases q with
            | add x => simp [after]
            | keep x => simp [before] at hb0
            | del x => simp [before] at hb0
          have hml : 2 ≤ marker.length := by decide
          have hlt : (marker ++ ((q :: qs).flatMap printed ++ T)).length < (printed p ++ ((q :: qs).flatMap printed ++ T)).length := by
            unfold printed
            rw [if_neg hl]
            simp only [List.length_append, List.length_cons, noNewline, marker, List.length_nil]
            have := List.length_pos_iff.mpr g1
            omega
          cases fuel with
          | zero => simp only [List.length_append] at hf hlt; omega
          | succ fuel =>
            have e0 : parseBody h (fuel + 1) (marker ++ ((q :: qs).flatMap printed ++ T)) (before (q :: qs)).length (after (q :: qs)).length (some (originOf p)) =
                parseBody h fuel ((q :: qs).flatMap printed ++ T) (before (q :: qs)).length (after (q :: qs)).length (some (eofFor (some (originOf p)))) >>= fun r =>
                  .ok (dupLine (eofFor (some (originOf p))) marker :: r.1, r.2) := by
              obtain ⟨m1, m2⟩ := marker_line ((q :: qs).flatMap printed ++ T)
              rw [parseBody, if_pos ⟨by rw [List.length_append]; omega, .inr (by omega), not_header (by decide)⟩, m1, m2, if_neg, if_neg (by decide)]
              · dsimp only
                rw [hb0]
                have hhd : (marker ++ ((q :: qs).flatMap printed ++ T)).headD 0 = c!"\\" := rfl
                rw [hhd, if_neg (by decide), if_neg (by decide), if_neg (by decide), if_neg (by decide), if_pos ⟨rfl, rfl⟩, Res.bind_ok]
                rfl
              · unfold noInt
                simp only [decide_eq_true_eq, not_or]
                omega
            rw [e0]
            obtain ⟨ls, last', rest, e, hc⟩ := ih fuel (some (eofFor (some (originOf p)))) g5 (by simp only [List.length_append] at hf hlt ⊢; omega) hb' ha'
            rw [e, Res.bind_ok, Res.bind_ok]
            have hm : isEof (dupLine (eofFor (some (originOf p))) marker).origin = true := by cases p <;> rfl
            refine ⟨_, last', rest, rfl, ?_⟩
            rcases hc with ⟨hc1, hc2⟩ | ⟨hc1, hc2, hc3⟩
            · exact .inl ⟨hc1, .marked rfl hm g1 hl (.inr (dupLine_text g3')) hc2⟩
            · exact .inr ⟨hc1, by simp, fun m hm' => .marked rfl hm g1 hl (.inr (dupLine_text g3')) (hc3 m hm')⟩

end Verif.Patch
