import Verif.Patch.Lemmas7
/-! # Reading all hunks -/
namespace Verif.Patch
open Spec

theorem marker_contains (T : Bytes) : contains (marker ++ T) b!"\\ " = true := by
  have e : marker ++ T = b!"\\ " ++ (b!"No newline at end of file\n" ++ T) := rfl
  rw [e]
  exact contains_prefix _ _ (by decide)

theorem parseHunkBody_eq (h : Hunk) (seen : Bool) (ps : List Piece) (T : Bytes) (hg : Good ps) (h1 : 0 ≤ h.oldStart) (h2 : 0 ≤ h.newStart) (h3 : h.oldLines = ((before ps).length : Int))
    (h4 : h.newLines = ((after ps).length : Int)) (h5 : h.oldStart + h.oldLines < 2 ^ 31) (h6 : h.newStart + h.newLines < 2 ^ 31) (hT : contains T b!"\\ " = false) :
    ∃ ls, parseHunkBody h seen (ps.flatMap printed ++ T) = .ok ({ h with lines := ls }, T) ∧ Shows ls ps := by
  obtain ⟨ls, last', rest, e, hc⟩ := parseBody_eq h h1 h2 (by omega) (by omega) h5 h6 T ps _ none hg (Nat.le_refl _) (by omega) (by omega)
  unfold parseHunkBody
  rw [h3, h4, e, Res.bind_ok]
  dsimp only
  rw [if_neg (by simp)]
  rcases hc with ⟨hc1, hc2⟩ | ⟨hc1, hc2, hc3⟩
  · rw [hc1, hT, if_neg (by simp)]
    exact ⟨ls, by rw [← h3, ← h4], hc2⟩
  · rw [hc1, marker_contains, if_pos ⟨rfl, .inr hc2⟩, (marker_line T).2]
    refine ⟨_, by rw [← h3, ← h4], hc3 _ ?_⟩
    show isEof (eofFor last') = true
    unfold eofFor
    split
    · rfl
    · split <;> rfl

theorem before_after_zero {ps : List Piece} (h : ps ≠ []) : (before ps).length ≠ 0 ∨ (after ps).length ≠ 0 := by
  cases ps with
  | nil => exact absurd rfl h
  | cons p ps => cases p <;> simp [before, after]

theorem header_starts (s1 c1 s2 c2 : Nat) (x T : Bytes) : contains (headText s1 c1 s2 c2 ++ x ++ b!"\n" ++ T) b!"@@ -" = true ∧ contains (headText s1 c1 s2 c2 ++ x ++ b!"\n" ++ T) b!"\\ " = false := by
  have e : headText s1 c1 s2 c2 ++ x ++ b!"\n" ++ T = b!"@@ -" ++ (nums s1 c1 ++ b!" +" ++ nums s2 c2 ++ b!" @@" ++ x ++ b!"\n" ++ T) := by
    unfold headText
    simp only [List.append_assoc]
  rw [e]
  refine ⟨contains_prefix _ _ (by decide), ?_⟩
  cases hc : contains (b!"@@ -" ++ (nums s1 c1 ++ b!" +" ++ nums s2 c2 ++ b!" @@" ++ x ++ b!"\n" ++ T)) b!"\\ " with
  | false => rfl
  | true =>
    obtain ⟨t, ht⟩ := contains_head hc
    simp at ht

/-- hunks that are printed and read again say the same -/
theorem parseHunks_eq {n : Nat} (hn : n + 1 < 10 ^ 8) : ∀ (parts : List Part) (hs : List Hunk) (o m : Nat), AllMade FuncLine n parts hs → Describes o m parts hs →
    (∀ p ∈ parts, p.pieces ≠ [] ∧ Good p.pieces) →
    ∃ text, printHunks hs = .ok text ∧ (hs ≠ [] → ∀ T, contains (text ++ T) b!"@@ -" = true ∧ contains (text ++ T) b!"\\ " = false) ∧
      ∀ T, contains T b!"@@ -" = false → contains T b!"\\ " = false → ∀ fuel seen, (text ++ T).length ≤ fuel →
        ∃ hs', parseHunks fuel seen (text ++ T) = .ok (hs', T) ∧ Describes o m parts hs' := by
  intro parts
  induction parts with
  | nil =>
    intro hs o m hm hd _
    cases hm
    refine ⟨[], rfl, fun h => absurd rfl h, fun T h1 h2 fuel seen _ => ⟨[], ?_, .nil⟩⟩
    cases fuel with
    | zero => rfl
    | succ fuel => rw [parseHunks, List.nil_append, if_neg (by rw [h1]; simp)]
  | cons p ps ih =>
    intro hs o m hm hd hg
    cases hm with
    | @cons _ _ h hs hmade hrest =>
      cases hd with
      | cons d1 d2 d3 d4 d5 =>
        obtain ⟨m1, s1, s2, func, h0, b1, b2, b3, b4, b5, b6, hF, he, heq⟩ := hmade
        obtain ⟨hne, hgood⟩ := hg p List.mem_cons_self
        obtain ⟨x, e0, hx, hl⟩ := header_kept hn b1 b5 b2 b6 hF he
        have hz := before_after_zero hne
        obtain ⟨text, t1, t2, t3⟩ := ih hs _ _ hrest d5 (fun q hq => hg q (List.mem_cons_of_mem _ hq))
        have hhead : h.header = headText s1 (before p.pieces).length s2 (after p.pieces).length ++ x ++ b!"\n" := by rw [heq, e0]
        refine ⟨h.header ++ p.pieces.flatMap printed ++ text, ?_, ?_, ?_⟩
        · rw [printHunks, m1, printLines_pieces _ hgood, Res.bind_ok, t1, Res.bind_ok]
        · intro _ T
          rw [hhead, List.append_assoc, List.append_assoc]
          exact header_starts _ _ _ _ _ _
        · intro T hT1 hT2 fuel seen hf
          have hnext : contains (text ++ T) b!"\\ " = false := by
            cases hs with
            | nil => simp only [printHunks, Res.ok.injEq] at t1; rw [← t1]; exact hT2
            | cons h' hs' => exact (t2 (by simp) T).2
          cases fuel with
          | zero =>
            rw [hhead] at hf
            simp only [List.length_append, List.length_cons] at hf
            omega
          | succ fuel =>
            have et : h.header ++ p.pieces.flatMap printed ++ text ++ T = headText s1 (before p.pieces).length s2 (after p.pieces).length ++ x ++ b!"\n" ++ (p.pieces.flatMap printed ++ (text ++ T)) := by
              rw [hhead]; simp only [List.append_assoc]
            rw [et]
            rw [parseHunks, if_pos (header_starts _ _ _ _ _ _).1, parseHeader_eq x _ (by omega) (by omega) (by omega) (by omega) hz hx hl, Res.bind_ok]
            dsimp only
            obtain ⟨ls, e1, hsh⟩ := parseHunkBody_eq ({ oldStart := ((if (before p.pieces).length ≠ 0 then s1 else s1 - 1 : Nat) : Int), oldLines := (before p.pieces).length, newStart := ((if (after p.pieces).length ≠ 0 then s2 else s2 - 1 : Nat) : Int), newLines := (after p.pieces).length, header := headText s1 (before p.pieces).length s2 (after p.pieces).length ++ x ++ b!"\n", lines := [] } : Hunk)
              seen p.pieces (text ++ T) hgood (by dsimp only; omega) (by dsimp only; omega) rfl rfl (by dsimp only; split <;> omega) (by dsimp only; split <;> omega) hnext
            rw [e1, Res.bind_ok]
            dsimp only
            obtain ⟨hs', e2, hd'⟩ := t3 T hT1 hT2 fuel (seen || !ls.isEmpty) (by
              rw [hhead] at hf
              simp only [List.length_append, List.length_cons, List.length_nil] at hf ⊢
              omega)
            rw [e2, Res.bind_ok]
            refine ⟨_, rfl, .cons hsh rfl rfl ?_ hd'⟩
            dsimp only
            rw [← show h.newStart = ((if (after p.pieces).length ≠ 0 then s2 else s2 - 1 : Nat) : Int) from by rw [heq, e0]]
            exact d4

end Verif.Patch
