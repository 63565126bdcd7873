import Verif.MergeFile.Refine
import Verif.MergeFile.Spec
import Verif.Patch.Lemmas
/-! # What is written for regions that are laid -/
namespace Verif.MergeFile
open Verif.Patch (Change splitLines)
open Spec (Crlf Lf Eol Hunk Common ShowsAll Shows Verdict)

theorem size_eq (c : Chunk) : c.size = c.bytes.length := by
  cases c with
  | text b => rfl
  | marker c n name cr => cases name <;> cases cr <;> simp [Chunk.size, Chunk.bytes] <;> omega

theorem sizes_eq (cs : List Chunk) : (cs.map Chunk.size).sum = (cs.map Chunk.bytes).flatten.length := by
  induction cs with
  | nil => rfl
  | cons c cs ih => simp only [List.map_cons, List.sum_cons, List.flatten_cons, List.length_append, ih, size_eq]

theorem output_eq (cs : List Chunk) : output cs = if 2 ^ 31 ≤ (cs.map Chunk.bytes).flatten.length then .ub else .ok (cs.map Chunk.bytes).flatten := by
  unfold output
  rw [sizes_eq]
  split
  · rfl
  · rw [if_neg (by omega)]

/-! ## Line ends -/

/-- every line but the last ends in LF -/
def Ended (ls : List Bytes) : Prop := ∀ i, i + 1 < ls.length → ∃ x, ls[i]? = some (x ++ [c!"\n"])

theorem ended_split (s : Bytes) : Ended (splitLines s) := by
  intro i hi
  have h := (Patch.splitLines_lines s).2.2.2
  have hg : (splitLines s).dropLast[i]? = some ((splitLines s)[i]'(by omega)) := by
    rw [List.getElem?_eq_getElem (by rw [List.length_dropLast]; omega), List.getElem_dropLast]
  have hl := h _ (List.mem_of_getElem? hg)
  obtain ⟨ys, e⟩ := List.getLast?_eq_some_iff.1 hl
  exact ⟨ys, by rw [List.getElem?_eq_getElem (by omega), e]⟩

theorem crBefore_lf (x : Bytes) : (crBefore (x ++ [c!"\n"]) = 1 ∧ Crlf (x ++ [c!"\n"])) ∨ (crBefore (x ++ [c!"\n"]) = 0 ∧ Lf (x ++ [c!"\n"])) := by
  unfold crBefore
  rcases List.eq_nil_or_concat x with rfl | ⟨y, c, rfl⟩
  · right
    refine ⟨by simp, ⟨[], rfl⟩, ?_⟩
    rintro ⟨z, hz⟩
    have := congrArg List.length hz
    simp at this
  · by_cases hc : c = 13
    · left
      subst hc
      refine ⟨?_, y, by simp⟩
      rw [if_pos]
      simp
    · right
      refine ⟨?_, ⟨_, rfl⟩, ?_⟩
      · rw [if_neg]
        simp [hc]
      · rintro ⟨z, hz⟩
        rw [show z ++ [13, c!"\n"] = (z ++ [13]) ++ [c!"\n"] by simp] at hz
        have h1 := List.append_cancel_right hz
        rw [List.concat_eq_append] at h1
        exact hc (List.append_inj' h1 rfl |>.2 |> List.cons.inj |>.1)

theorem isEolCrlf_ok {file : List Bytes} (he : Ended file) {i : Nat} (hi : i < file.length ∨ file = [] ∧ i = 0) :
    (isEolCrlf file i = .ok 1 ∧ (∃ l ∈ file, Crlf l) ∧ (i = 0 → ∃ l, file.head? = some l ∧ Crlf l)) ∨ (isEolCrlf file i = .ok 0 ∧ (∃ l ∈ file, Lf l) ∧ (i = 0 → ∃ l, file.head? = some l ∧ Lf l)) ∨
      (isEolCrlf file i = .ok (-1) ∧ ∀ l ∈ file, ¬ Crlf l ∧ ¬ Lf l) := by
  have key : ∀ (j : Nat) (x : Bytes), file[j]? = some (x ++ [c!"\n"]) → (crBefore (x ++ [c!"\n"]) = 1 ∧ (∃ l ∈ file, Crlf l) ∧ (j = 0 → ∃ l, file.head? = some l ∧ Crlf l)) ∨
      (crBefore (x ++ [c!"\n"]) = 0 ∧ (∃ l ∈ file, Lf l) ∧ (j = 0 → ∃ l, file.head? = some l ∧ Lf l)) := by
    intro j x hx
    have hmem := List.mem_of_getElem? hx
    have hhead : j = 0 → file.head? = some (x ++ [c!"\n"]) := by intro h; subst h; rw [List.head?_eq_getElem?]; exact hx
    rcases crBefore_lf x with ⟨a, b⟩ | ⟨a, b⟩
    · exact .inl ⟨a, ⟨_, hmem, b⟩, fun h => ⟨_, hhead h, b⟩⟩
    · exact .inr ⟨a, ⟨_, hmem, b⟩, fun h => ⟨_, hhead h, b⟩⟩
  unfold isEolCrlf
  by_cases h1 : i + 1 < file.length
  · rw [if_pos h1]
    obtain ⟨x, hx⟩ := he i h1
    rw [List.getD_eq_getElem?_getD, hx, Option.getD_some]
    rcases key i x hx with ⟨a, b⟩ | ⟨a, b⟩
    · left; rw [a]; exact ⟨rfl, b⟩
    · right; left; rw [a]; exact ⟨rfl, b⟩
  · rw [if_neg h1]
    by_cases h2 : file.length = 0
    · rw [if_pos h2]
      right; right
      refine ⟨rfl, ?_⟩
      rw [List.length_eq_zero_iff] at h2
      subst h2; intro l hl; cases hl
    · rw [if_neg h2]
      have hlt : i < file.length := by
        rcases hi with h | ⟨h, _⟩
        · exact h
        · rw [h] at h2; exact absurd rfl h2
      rw [List.getElem?_eq_getElem hlt]
      dsimp only
      by_cases h3 : file[i].length ≠ 0 ∧ file[i].getLast? = some c!"\n"
      · rw [if_pos h3]
        obtain ⟨ys, e⟩ := List.getLast?_eq_some_iff.1 h3.2
        rw [e]
        rcases key i ys (by rw [List.getElem?_eq_getElem hlt, e]) with ⟨a, b⟩ | ⟨a, b⟩
        · left; rw [a]; exact ⟨rfl, b⟩
        · right; left; rw [a]; exact ⟨rfl, b⟩
      · rw [if_neg h3]
        by_cases h4 : i = 0
        · rw [if_pos h4]
          subst h4
          right; right
          refine ⟨rfl, ?_⟩
          have hone : file = [file[0]] := by
            apply List.ext_getElem
            · simp; omega
            · intro n _ hn
              simp at hn
              subst hn
              rfl
          intro l hl
          rw [hone, List.mem_singleton] at hl
          subst hl
          have hno : ¬ ∃ x, file[0] = x ++ [c!"\n"] := by
            rintro ⟨x, hx⟩
            apply h3
            rw [hx]
            exact ⟨by simp, by simp⟩
          constructor
          · rintro ⟨x, hx⟩
            exact hno ⟨x ++ [13], by rw [hx]; simp⟩
          · intro hlf; exact hno hlf.1
        · rw [if_neg h4]
          obtain ⟨x, hx⟩ := he (i - 1) (by omega)
          rw [List.getD_eq_getElem?_getD, hx, Option.getD_some]
          rcases key (i - 1) x hx with ⟨a, b, _⟩ | ⟨a, b, _⟩
          · left; rw [a]; exact ⟨rfl, b, fun h => absurd h h4⟩
          · right; left; rw [a]; exact ⟨rfl, b, fun h => absurd h h4⟩

def eolOf (cr : Bool) : Bytes := (if cr then [13] else []) ++ [c!"\n"]

/-- files made of lines -/
structure EndedF (F : Files) : Prop where
  base : Ended F.base
  ours : Ended F.ours
  theirs : Ended F.theirs

theorem isCrNeeded_ok {F : Files} (he : EndedF F) {m : M} {a b : Nat} (h1 : m.i1 = a) (h2 : m.i2 = b) (ha : a ≤ F.ours.length) (hb : b ≤ F.theirs.length) :
    ∃ cr, isCrNeeded F m = .ok cr ∧ Eol F.base F.ours F.theirs (eolOf cr) := by
  have place : ∀ (file : List Bytes) (i : Int) (n : Nat), i = n → n ≤ file.length → lineBefore i < file.length ∨ file = [] ∧ lineBefore i = 0 := by
    intro file i n hi hn
    unfold lineBefore
    split
    · left; omega
    · cases file with
      | nil => right; exact ⟨rfl, rfl⟩
      | cons => left; simp
  have hO := isEolCrlf_ok he.ours (place _ _ _ h1 ha)
  have hT := isEolCrlf_ok he.theirs (place _ _ _ h2 hb)
  have hB := isEolCrlf_ok he.base (i := 0) (by cases h : F.base with
    | nil => right; exact ⟨rfl, rfl⟩
    | cons => left; simp)
  have notboth : ∀ l, Crlf l → ¬ Lf l := fun l h h' => h'.2 h
  have heq : ([c!"\n"] : Bytes) ≠ [13, c!"\n"] := by decide
  unfold isCrNeeded
  have lfcase : ((∃ l ∈ F.ours, Lf l) ∨ (∃ l ∈ F.theirs, Lf l) ∨ ¬ ∃ l, F.base.head? = some l ∧ Crlf l) → Eol F.base F.ours F.theirs (eolOf false) := by
    intro h
    refine ⟨.inl rfl, fun e => absurd e heq, fun _ _ _ _ => rfl, ?_⟩
    intro hb h1 h2
    rcases h with ⟨l, hl, h⟩ | ⟨l, hl, h⟩ | h
    · exact absurd h (h1 l hl)
    · exact absurd h (h2 l hl)
    · exact absurd hb h
  have side : ∀ file : List Bytes, ((∃ l ∈ file, Crlf l) ∨ ∀ l ∈ file, ¬ Crlf l ∧ ¬ Lf l) → (∃ l ∈ file, Lf l) → ¬ ∀ l ∈ file, ¬ Crlf l := by
    intro file h ⟨l, hl, hf⟩ hn
    rcases h with ⟨l', hl', h⟩ | h
    · exact hn l' hl' h
    · exact (h l hl).2 hf
  have crcase : ((∃ l ∈ F.ours, Crlf l) ∨ ∀ l ∈ F.ours, ¬ Crlf l ∧ ¬ Lf l) → ((∃ l ∈ F.theirs, Crlf l) ∨ ∀ l ∈ F.theirs, ¬ Crlf l ∧ ¬ Lf l) → (∃ l, F.base.head? = some l ∧ Crlf l) →
      Eol F.base F.ours F.theirs (eolOf true) := by
    intro h1 h2 h3
    refine ⟨.inr rfl, fun _ => h3, ?_, fun _ _ _ => rfl⟩
    rintro s (rfl | rfl) h4 h5
    · exact absurd h5 (side _ h1 h4)
    · exact absurd h5 (side _ h2 h4)
  have basecase : ∀ r1 r2, (((∃ l ∈ F.ours, Crlf l) ∨ ∀ l ∈ F.ours, ¬ Crlf l ∧ ¬ Lf l) ∧ r1 = true) → (((∃ l ∈ F.theirs, Crlf l) ∨ ∀ l ∈ F.theirs, ¬ Crlf l ∧ ¬ Lf l) ∧ r2 = true) →
      ∃ cr, (isEolCrlf F.base 0 >>= fun c => (.ok (decide (0 < c)) : Res Bool)) = .ok cr ∧ Eol F.base F.ours F.theirs (eolOf cr) := by
    intro _ _ h1 h2
    rcases hB with ⟨a, b, c⟩ | ⟨a, b, c⟩ | ⟨a, b⟩
    · rw [a]; exact ⟨true, rfl, crcase h1.1 h2.1 (c rfl)⟩
    · rw [a]
      refine ⟨false, rfl, lfcase (.inr (.inr ?_))⟩
      rintro ⟨l, h, h'⟩
      obtain ⟨l', h'', h3⟩ := c rfl
      rw [h] at h''
      cases h''
      exact notboth _ h' h3
    · rw [a]
      refine ⟨false, rfl, lfcase (.inr (.inr ?_))⟩
      rintro ⟨l, h, h'⟩
      exact (b l (List.mem_of_mem_head? (by rw [h]; simp))).1 h'
  rcases hO with ⟨a, b, _⟩ | ⟨a, b, _⟩ | ⟨a, b⟩
  · rw [a, Res.bind_ok, if_neg (by decide)]
    rcases hT with ⟨a', b', _⟩ | ⟨a', b', _⟩ | ⟨a', b'⟩
    · rw [a', Res.bind_ok, if_neg (by decide)]; exact basecase true true ⟨.inl b, rfl⟩ ⟨.inl b', rfl⟩
    · rw [a', Res.bind_ok, if_pos rfl]; exact ⟨false, rfl, lfcase (.inr (.inl b'))⟩
    · rw [a', Res.bind_ok, if_neg (by decide)]; exact basecase true true ⟨.inl b, rfl⟩ ⟨.inr b', rfl⟩
  · rw [a, Res.bind_ok, if_pos rfl]; exact ⟨false, rfl, lfcase (.inl b)⟩
  · rw [a, Res.bind_ok, if_neg (by decide)]
    rcases hT with ⟨a', b', _⟩ | ⟨a', b', _⟩ | ⟨a', b'⟩
    · rw [a', Res.bind_ok, if_neg (by decide)]; exact basecase true true ⟨.inr b, rfl⟩ ⟨.inl b', rfl⟩
    · rw [a', Res.bind_ok, if_pos rfl]; exact ⟨false, rfl, lfcase (.inr (.inl b'))⟩
    · rw [a', Res.bind_ok, if_neg (by decide)]; exact basecase true true ⟨.inr b, rfl⟩ ⟨.inr b', rfl⟩

/-! ## Hunks -/

theorem drop_split {X : List Bytes} {i k : Nat} : X.drop i = slice X i k ++ X.drop (i + k) := by
  unfold slice
  rw [← List.drop_drop, List.take_append_drop]

theorem slice_zero (X : List Bytes) (i : Nat) : slice X i 0 = [] := by simp [slice]

theorem slice_add (X : List Bytes) (i k k' : Nat) : slice X i (k + k') = slice X i k ++ slice X (i + k) k' := by
  unfold slice
  rw [List.take_add, List.drop_drop]

theorem recsCopy_ok {l : List Bytes} {i c : Int} {a b : Nat} {cr nl : Bool} (h1 : i = a) (h2 : c = b) (h : a + b ≤ l.length) :
    recsCopy l i c cr nl = .ok (.text ((slice l a b).flatten ++ (if nl then addNewline cr (slice l a b) else []))) := by
  unfold recsCopy
  by_cases hc : c < 1
  · have : b = 0 := by omega
    subst this
    rw [if_pos hc, slice_zero]
    cases nl <;> simp [addNewline]
  · rw [if_neg hc, range_ok h1 h2 h, Res.bind_ok]

theorem ended_eq (cr : Bool) (ls : List Bytes) : ls.flatten ++ addNewline cr ls = Spec.ended (eolOf cr) ls := by
  unfold addNewline Spec.ended eolOf
  cases h : ls.getLast? with
  | none => rw [List.getLast?_eq_none_iff] at h; subst h; simp
  | some l =>
    have hne : ls ≠ [] := by rintro rfl; cases h
    dsimp only
    simp only [Option.bind_some, hne, false_or]

/-- the favor of a number -/
def favorOf (n : Nat) : Spec.Favor := if n = 1 then .ours else if n = 2 then .theirs else if n = 3 then .union else .none

/-- the style of parameters -/
def styleS (P : Params) : Spec.Style := ⟨favorOf P.favor, decide (P.style = 1 ∨ P.style = 2), P.marks, P.name1, P.name2, P.ancestor⟩

theorem marker_eq (P : Params) (c : UInt8) (name : Option Bytes) (cr : Bool) : (Chunk.marker c P.marks name cr).bytes = Spec.marker (styleS P) c name (eolOf cr) := by
  unfold Chunk.bytes Spec.marker eolOf styleS
  cases name <;> simp

/-- the hunk of a region -/
def verdictOf (m : M) : Verdict := if m.mode = 0 then .conflict else if m.mode = 1 then .ours else if m.mode = 2 then .theirs else .both

/-- a conflict in the result -/
def conflictText (s : Spec.Style) (eol : Bytes) (b o t : List Bytes) : Bytes :=
  Spec.marker s c!"<" s.name1 eol ++ Spec.ended eol o ++ (if s.withBase then Spec.marker s c!"|" s.ancestor eol ++ Spec.ended eol b else []) ++ Spec.marker s c!"=" none eol ++ Spec.ended eol t ++
    Spec.marker s c!">" s.name2 eol

theorem conflictHunk_ok {F : Files} (he : EndedF F) {P : Params} {m : M} {i : Nat} {a k1 b k2 n0 nb : Nat} (h1 : m.i1 = a) (h2 : m.i2 = b) (g1 : m.chg1 = k1) (g2 : m.chg2 = k2) (hi : i ≤ a)
    (ha : a + k1 ≤ F.ours.length) (hb : b + k2 ≤ F.theirs.length) (hn : n0 + nb ≤ F.base.length) (hd : P.style = 1 ∨ P.style = 2 → m.i0 = n0 ∧ m.chg0 = nb) {after : Common} (hf : P.favor = 0) :
    ∃ cs out, conflictHunk F P i m = .ok cs ∧ (cs.map Chunk.bytes).flatten = (slice F.ours i (a - i)).flatten ++ out ∧
      Shows (styleS P) F.base F.ours F.theirs ⟨.conflict, slice F.base n0 nb, slice F.ours a k1, slice F.theirs b k2, after⟩ out := by
  obtain ⟨cr, hcr, heol⟩ := isCrNeeded_ok he h1 h2 (by omega) (by omega)
  unfold conflictHunk ancestorPart
  rw [hcr, Res.bind_ok, recsCopy_ok (a := i) (b := a - i) rfl (by omega) (by omega), Res.bind_ok, recsCopy_ok h1 g1 ha, Res.bind_ok, recsCopy_ok h2 g2 hb]
  have hfav : (styleS P).favor = .none := by simp [styleS, favorOf, hf]
  by_cases hs : P.style = 1 ∨ P.style = 2
  · rw [if_pos hs, recsCopy_ok (hd hs).1 (hd hs).2 hn]
    simp only [Res.bind_ok]
    refine ⟨_, conflictText (styleS P) (eolOf cr) (slice F.base n0 nb) (slice F.ours a k1) (slice F.theirs b k2), rfl, ?_, ?_⟩
    rotate_left
    · unfold Shows
      simp only [hfav]
      exact ⟨eolOf cr, heol, rfl⟩
    · have hw : (styleS P).withBase = true := by simp [styleS, hs]
      simp only [conflictText, hw, if_true, List.map_append, List.map_cons, List.map_nil, List.flatten_append, List.flatten_cons, List.flatten_nil, marker_eq]
      simp only [Chunk.bytes, ended_eq, Bool.false_eq_true, if_false, List.append_nil, List.append_assoc, styleS]
  · rw [if_neg hs]
    simp only [Res.bind_ok]
    refine ⟨_, conflictText (styleS P) (eolOf cr) (slice F.base n0 nb) (slice F.ours a k1) (slice F.theirs b k2), rfl, ?_, ?_⟩
    rotate_left
    · unfold Shows
      simp only [hfav]
      exact ⟨eolOf cr, heol, rfl⟩
    · have hw : (styleS P).withBase = false := by simp [styleS, hs]
      simp only [conflictText, hw, if_true, List.map_append, List.map_cons, List.map_nil, List.flatten_append, List.flatten_cons, List.flatten_nil, marker_eq]
      simp only [Chunk.bytes, ended_eq, Bool.false_eq_true, if_false, if_true, List.append_nil, List.append_assoc, styleS]

theorem plainHunk_ok {F : Files} (he : EndedF F) {mode : Nat} {m : M} {i : Nat} {a k1 b k2 : Nat} (h1 : m.i1 = a) (h2 : m.i2 = b) (g1 : m.chg1 = k1) (g2 : m.chg2 = k2) (hi : i ≤ a)
    (ha : a + k1 ≤ F.ours.length) (hb : b + k2 ≤ F.theirs.length) (hm : mode = 1 ∨ mode = 2 ∨ mode = 3) :
    ∃ cs out, plainHunk F mode i m = .ok cs ∧ (cs.map Chunk.bytes).flatten = (slice F.ours i (a - i)).flatten ++ out ∧ (mode = 1 → out = (slice F.ours a k1).flatten) ∧
      (mode = 2 → out = (slice F.theirs b k2).flatten) ∧ (mode = 3 → ∃ eol, Eol F.base F.ours F.theirs eol ∧ out = Spec.ended eol (slice F.ours a k1) ++ (slice F.theirs b k2).flatten) := by
  obtain ⟨cr, hcr, heol⟩ := isCrNeeded_ok he h1 h2 (by omega) (by omega)
  unfold plainHunk takeFirst takeSecond
  rw [hcr, Res.bind_ok, recsCopy_ok (a := i) (b := a - i) rfl (by omega) (by omega), Res.bind_ok, recsCopy_ok h1 g1 ha, Res.bind_ok, recsCopy_ok h2 g2 hb]
  rcases hm with rfl | rfl | rfl
  · simp only [show (1 : Nat) % 2 = 1 from rfl, show (1 : Nat) / 2 % 2 = 0 from rfl, if_true, Res.bind_ok]
    refine ⟨_, (slice F.ours a k1).flatten, rfl, ?_, by simp, by simp, by simp⟩
    simp [Chunk.bytes]
  · simp only [show (2 : Nat) % 2 = 0 from rfl, show (2 : Nat) / 2 % 2 = 1 from rfl, if_true, Res.bind_ok]
    refine ⟨_, (slice F.theirs b k2).flatten, rfl, ?_, by simp, by simp, by simp⟩
    simp [Chunk.bytes]
  · simp only [show (3 : Nat) % 2 = 1 from rfl, show (3 : Nat) / 2 % 2 = 1 from rfl, if_true, Res.bind_ok]
    refine ⟨_, Spec.ended (eolOf cr) (slice F.ours a k1) ++ (slice F.theirs b k2).flatten, rfl, ?_, by simp, by simp, fun _ => ⟨_, heol, rfl⟩⟩
    simp only [decide_true, if_true, List.map_append, List.map_cons, List.map_nil, List.flatten_append, List.flatten_cons, List.flatten_nil, Chunk.bytes, ended_eq, Bool.false_eq_true, if_false,
      List.append_nil, List.append_assoc]

/-- what `fill` writes -/
structure Filled (F : Files) (P : Params) (ms : List M) (f : Bool) (i c0 c1 c2 : Nat) (cs : List Chunk) (start : Common) (hs : List Hunk) (b : Bytes) : Prop where
  bytes : (cs.map Chunk.bytes).flatten = (slice F.ours i (c1 - i)).flatten ++ start.lines.flatten ++ b
  base : F.base.drop c0 = start.base ++ (hs.map fun h => h.base ++ h.after.base).flatten
  ours : F.ours.drop c1 = start.lines ++ (hs.map fun h => h.ours ++ h.after.lines).flatten
  theirs : F.theirs.drop c2 = start.lines ++ (hs.map fun h => h.theirs ++ h.after.lines).flatten
  ok : ∀ h ∈ hs, h.Ok
  apart : ∀ h ∈ hs.dropLast, h.after.lines ≠ []
  gap : f = true → hs ≠ [] → start.lines ≠ []
  shows : ShowsAll (styleS P) F.base F.ours F.theirs hs b
  verdicts : hs.map Hunk.verdict = ms.map verdictOf

theorem fill_filled {F : Files} (he : EndedF F) {P : Params} (hP : P.favor ≤ 3) {f : Bool} {c0 c1 c2 : Nat} {ms : List M} (h : Laid F (decide (P.style = 1 ∨ P.style = 2)) f c0 c1 c2 ms) :
    ∀ i ≤ c1, ∃ cs start hs b, fill F P ms i = .ok cs ∧ Filled F P ms f i c0 c1 c2 cs start hs b := by
  induction h with
  | @nil f c0 c1 c2 k a b c d =>
    intro i hi
    simp only [fill]
    rw [recsCopy_ok (a := i) (b := F.ours.length - i) rfl (by omega) (by omega), Res.bind_ok]
    refine ⟨_, ⟨F.base.drop c0, F.ours.drop c1⟩, [], [], rfl, ?_, by simp, by simp, ?_, by simp, by simp, by simp, .nil, rfl⟩
    · rw [show F.ours.length - i = (c1 - i) + k by omega, slice_add, show i + (c1 - i) = c1 by omega, show F.ours.drop c1 = slice F.ours c1 k by
        unfold slice; rw [List.take_of_length_le]; rw [List.length_drop]; omega]
      simp [Chunk.bytes]
    · have := (al_iff (by omega) (by omega)).1 d
      unfold slice at this
      rw [List.take_of_length_le (by rw [List.length_drop]; omega), List.take_of_length_le (by rw [List.length_drop]; omega)] at this
      simp [this]
  | @cons f c0 c1 c2 k n0 nb k1 k2 ms m a b c d e g j l o t ih =>
    intro i hi
    have hb := t.bound
    have al := (al_iff (by omega) (by omega)).1 b
    have hlen := slice_length (X := F.ours) (i := c1) (k := k) (by omega)
    -- the parts that do not depend on the mode
    have build : ∀ (v : Verdict) (out : Bytes) (i' : Nat) (cs' : List Chunk) (start' : Common) (hs' : List Hunk) (b' : Bytes) (cs : List Chunk),
        Filled F P ms true i' (n0 + nb) (c1 + k + k1) (c2 + k + k2) cs' start' hs' b' → v = verdictOf m →
        Hunk.Ok ⟨v, slice F.base n0 nb, slice F.ours (c1 + k) k1, slice F.theirs (c2 + k) k2, start'⟩ →
        Shows (styleS P) F.base F.ours F.theirs ⟨v, slice F.base n0 nb, slice F.ours (c1 + k) k1, slice F.theirs (c2 + k) k2, start'⟩ out →
        (cs.map Chunk.bytes).flatten = (slice F.ours i (c1 - i)).flatten ++ (slice F.ours c1 k).flatten ++ (out ++ start'.lines.flatten ++ b') →
        Filled F P (m :: ms) f i c0 c1 c2 cs ⟨slice F.base c0 (n0 - c0), slice F.ours c1 k⟩
          (⟨v, slice F.base n0 nb, slice F.ours (c1 + k) k1, slice F.theirs (c2 + k) k2, start'⟩ :: hs') (out ++ start'.lines.flatten ++ b') := by
      intro v out i' cs' start' hs' b' cs hF hv hok hsh hby
      refine ⟨hby, ?_, ?_, ?_, ?_, ?_, ?_, .cons hsh hF.shows, ?_⟩
      · rw [List.map_cons, List.flatten_cons, drop_split (k := n0 - c0), show c0 + (n0 - c0) = n0 by omega, drop_split (i := n0) (k := nb), hF.base]
        simp
      · rw [List.map_cons, List.flatten_cons, drop_split (k := k), drop_split (i := c1 + k) (k := k1), hF.ours]
        simp
      · rw [List.map_cons, List.flatten_cons, drop_split (k := k), drop_split (i := c2 + k) (k := k2), hF.theirs, al]
        simp
      · intro h hh
        rcases List.mem_cons.1 hh with rfl | hh
        · exact hok
        · exact hF.ok h hh
      · intro h hh
        cases hs' with
        | nil => simp at hh
        | cons h' hs' =>
          rw [List.dropLast_cons₂, List.mem_cons] at hh
          rcases hh with rfl | hh
          · exact hF.gap rfl (by simp)
          · exact hF.apart h hh
      · intro hf _ hn
        have := a hf
        dsimp only at hn
        rw [hn] at hlen
        simp at hlen
        omega
      · rw [List.map_cons, List.map_cons, hF.verdicts, hv]
    have hi' : m.i1 + m.chg1 = ((c1 + k + k1 : Nat) : Int) := by omega
    have pre : (slice F.ours i (c1 + k - i)).flatten = (slice F.ours i (c1 - i)).flatten ++ (slice F.ours c1 k).flatten := by
      rw [show c1 + k - i = (c1 - i) + k by omega, slice_add, show i + (c1 - i) = c1 by omega, List.flatten_append]
    simp only [fill]
    by_cases hm0 : favored P m.mode = 0
    · -- a conflict
      rw [if_pos hm0, hi']
      have hm : m.mode = 0 ∧ P.favor = 0 := by
        unfold favored at hm0
        split at hm0
        · omega
        · omega
      obtain ⟨cs', start', hs', b', hfill, hF⟩ := ih (c1 + k + k1) (Nat.le_refl _)
      obtain ⟨ch, out, h1, h2, h3⟩ := conflictHunk_ok he (P := P) (m := m) (i := i) (n0 := n0) (nb := nb) (after := start') d e g j (by omega) (by omega) (by omega) (by omega)
        (fun hs => l (by simpa using hs)) hm.2
      rw [h1, Res.bind_ok, hfill, Res.bind_ok]
      refine ⟨_, _, _, _, rfl, build .conflict out _ cs' start' hs' b' _ hF (by simp [verdictOf, hm.1]) trivial h3 ?_⟩
      rw [List.map_append, List.flatten_append, h2, hF.bytes, Nat.sub_self, slice_zero, pre]
      simp
    · rw [if_neg hm0]
      by_cases hm4 : favored P m.mode % 4 ≠ 0
      · rw [if_pos hm4, hi']
        obtain ⟨cs', start', hs', b', hfill, hF⟩ := ih (c1 + k + k1) (Nat.le_refl _)
        have hmode : favored P m.mode = 1 ∨ favored P m.mode = 2 ∨ favored P m.mode = 3 := by
          rcases o with o | ⟨o, _⟩ | ⟨o, _⟩ | ⟨o, _⟩
          · unfold favored at hm4 hm0 ⊢
            split at hm0
            · rw [if_pos ‹_›]; omega
            · omega
          · simp [favored, o]
          · simp [favored, o]
          · exact absurd (show favored P m.mode % 4 = 0 by simp [favored, o]) hm4
        obtain ⟨ch, out, h1, h2, h3, h4, h5⟩ := plainHunk_ok he (m := m) (i := i) d e g j (by omega) (by omega) (by omega) hmode
        rw [h1, Res.bind_ok, hfill, Res.bind_ok]
        refine ⟨_, _, _, _, rfl, build (verdictOf m) out _ cs' start' hs' b' _ hF rfl ?_ ?_ ?_⟩
        · rcases o with o | ⟨o, x, y, o1, o2, o3, o4⟩ | ⟨o, x, y, o1, o2, o3, o4⟩ | ⟨o, _⟩
          · simp [verdictOf, o, Hunk.Ok]
          · simp only [verdictOf, o, Hunk.Ok]
            have : x = c2 + k ∧ y = k2 := by omega
            obtain ⟨rfl, rfl⟩ := this
            subst o3
            exact (al_iff (by omega) (by omega)).1 o4
          · simp only [verdictOf, o, Hunk.Ok]
            have : x = c1 + k ∧ y = k1 := by omega
            obtain ⟨rfl, rfl⟩ := this
            subst o3
            exact (al_iff (by omega) (by omega)).1 o4
          · exact absurd (show favored P m.mode % 4 = 0 by simp [favored, o]) hm4
        · rcases o with o | ⟨o, _⟩ | ⟨o, _⟩ | ⟨o, _⟩
          · have hv : verdictOf m = .conflict := by simp [verdictOf, o]
            rw [hv]
            have hfv : favored P m.mode = P.favor := by
              unfold favored at hm0 ⊢
              split at hm0
              · rw [if_pos ‹_›]
              · omega
            rw [hfv] at hmode h3 h4 h5
            unfold Shows
            rcases hmode with hp | hp | hp
            · simp only [styleS, favorOf, hp]; exact h3 hp
            · simp only [styleS, favorOf, hp]; exact h4 hp
            · simp only [styleS, favorOf, hp]; exact h5 hp
          · have hv : verdictOf m = .ours := by simp [verdictOf, o]
            rw [hv]; exact h3 (by simp [favored, o])
          · have hv : verdictOf m = .theirs := by simp [verdictOf, o]
            rw [hv]; exact h4 (by simp [favored, o])
          · exact absurd (show favored P m.mode % 4 = 0 by simp [favored, o]) hm4
        · rw [List.map_append, List.flatten_append, h2, hF.bytes, Nat.sub_self, slice_zero, pre]
          simp
      · rw [if_neg hm4]
        obtain ⟨cs', start', hs', b', hfill, hF⟩ := ih i (by omega)
        have hm4' : m.mode = 4 ∧ ∃ i j k : Nat, m.i1 = i ∧ m.i2 = j ∧ m.chg1 = k ∧ m.chg2 = k ∧ Al F.ours F.theirs i j k := by
          rcases o with o | ⟨o, _⟩ | ⟨o, _⟩ | o
          · exfalso
            unfold favored at hm0 hm4
            split at hm0
            · rw [if_pos ‹_›] at hm4; omega
            · omega
          · exact absurd (show favored P m.mode % 4 ≠ 0 by simp [favored, o]) hm4
          · exact absurd (show favored P m.mode % 4 ≠ 0 by simp [favored, o]) hm4
          · exact o
        obtain ⟨o, x, y, z, o1, o2, o3, o4, o5⟩ := hm4'
        have : x = c1 + k ∧ y = c2 + k ∧ z = k1 ∧ z = k2 := by omega
        obtain ⟨rfl, rfl, rfl, rfl⟩ := this
        have hv : verdictOf m = .both := by simp [verdictOf, o]
        rw [hfill]
        refine ⟨_, _, _, _, rfl, build .both (slice F.ours (c1 + k) z).flatten _ cs' start' hs' b' _ hF hv.symm ((al_iff (by omega) (by omega)).1 o5) rfl ?_⟩
        rw [hF.bytes, show c1 + k + z - i = (c1 + k - i) + z by omega, slice_add, List.flatten_append, pre, show i + (c1 + k - i) = c1 + k by omega]
        simp

end Verif.MergeFile
