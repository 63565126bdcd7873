import Verif.Patch.Model
import Verif.Patch.Spec
import Mathlib.Data.List.Basic
/-! # Applying hunks to images -/
namespace Verif.Patch
open Spec

/-- the texts of lines -/
def ReadsL (ls : List Line) (bs : List Bytes) : Prop := ls.map Line.text = bs.map Res.ok

/-- the texts of an image -/
def Reads (im : List (Option Line)) (bs : List Bytes) : Prop := ∃ ls : List Line, im = ls.map some ∧ ReadsL ls bs

theorem ReadsL.length {ls : List Line} {bs : List Bytes} (h : ReadsL ls bs) : ls.length = bs.length := by
  have := congrArg List.length h
  simpa using this

theorem ReadsL.nil : ReadsL [] [] := rfl

theorem ReadsL.cons {l : Line} {ls : List Line} {b : Bytes} {bs : List Bytes} (h : l.text = .ok b) (hs : ReadsL ls bs) : ReadsL (l :: ls) (b :: bs) := by
  unfold ReadsL
  rw [List.map_cons, List.map_cons, h, hs]

theorem ReadsL.inv {l : Line} {ls : List Line} {b : Bytes} {bs : List Bytes} (h : ReadsL (l :: ls) (b :: bs)) : l.text = .ok b ∧ ReadsL ls bs := by
  unfold ReadsL at h
  rw [List.map_cons, List.map_cons] at h
  injection h with h1 h2
  exact ⟨h1, h2⟩

theorem ReadsL.append {a b : List Line} {x y : List Bytes} (h : ReadsL a x) (h' : ReadsL b y) : ReadsL (a ++ b) (x ++ y) := by
  unfold ReadsL at *
  rw [List.map_append, List.map_append, h, h']

theorem ReadsL.split {ls : List Line} {x y : List Bytes} (h : ReadsL ls (x ++ y)) : ∃ a b, ls = a ++ b ∧ ReadsL a x ∧ ReadsL b y := by
  refine ⟨ls.take x.length, ls.drop x.length, (List.take_append_drop _ _).symm, ?_, ?_⟩
  · unfold ReadsL at *
    rw [List.map_take, h, List.map_append, List.take_append_of_le_length (by simp), List.take_of_length_le (by simp)]
  · unfold ReadsL at *
    rw [List.map_drop, h, List.map_append]
    have : x.length = (x.map (Res.ok : Bytes → Res Bytes)).length := by simp
    rw [this, List.drop_left]

theorem text_len {l : Line} {b : Bytes} (h : l.text = .ok b) : l.len = b.length := by
  unfold Line.text at h
  split at h
  · rw [← Res.ok.inj h, List.length_take]
    omega
  · cases h

theorem Reads.length {im : List (Option Line)} {bs : List Bytes} (h : Reads im bs) : im.length = bs.length := by
  obtain ⟨ls, rfl, h⟩ := h
  rw [List.length_map, h.length]

theorem Reads.append {a b : List (Option Line)} {x y : List Bytes} (h : Reads a x) (h' : Reads b y) : Reads (a ++ b) (x ++ y) := by
  obtain ⟨l, rfl, h⟩ := h
  obtain ⟨l', rfl, h'⟩ := h'
  exact ⟨l ++ l', by simp, h.append h'⟩

theorem Reads.split {im : List (Option Line)} {x y : List Bytes} (h : Reads im (x ++ y)) : ∃ a b, im = a ++ b ∧ Reads a x ∧ Reads b y := by
  obtain ⟨ls, rfl, h⟩ := h
  obtain ⟨a, b, rfl, h1, h2⟩ := h.split
  exact ⟨a.map some, b.map some, by simp, ⟨a, rfl, h1⟩, ⟨b, rfl, h2⟩⟩

theorem ReadsL.reads {ls : List Line} {bs : List Bytes} (h : ReadsL ls bs) : Reads (ls.map some) bs := ⟨ls, rfl, h⟩

theorem matchLines_eq : ∀ (ls pre : List Line) (bs ps : List Bytes), ReadsL ls bs → ReadsL pre ps → ps.length ≤ bs.length →
    matchLines (ls.map some) pre = .ok (decide (ps <+: bs)) := by
  intro ls pre
  induction pre generalizing ls with
  | nil =>
    intro bs ps _ hp _
    have : ps = [] := List.length_eq_zero_iff.mp (by rw [← hp.length]; rfl)
    subst this
    cases ls <;> rfl
  | cons p pre ih =>
    intro bs ps hl hp hlen
    cases ps with
    | nil => have := hp.length; simp at this
    | cons q qs =>
      cases bs with
      | nil => simp at hlen
      | cons b bs =>
        cases ls with
        | nil => have := hl.length; simp at this
        | cons l ls =>
          obtain ⟨h1, h2⟩ := hl.inv
          obtain ⟨h3, h4⟩ := hp.inv
          rw [List.map_cons, matchLines]
          by_cases hne : p.len ≠ l.len
          · rw [if_pos hne]
            rw [text_len h1, text_len h3] at hne
            rw [decide_eq_false]
            intro hpre
            rw [List.cons_prefix_cons] at hpre
            exact hne (by rw [hpre.1])
          · rw [if_neg hne, h3, Res.bind_ok, h1, Res.bind_ok]
            by_cases hq : q = b
            · subst hq
              rw [if_neg (by simp), ih ls bs qs h2 h4 (by simpa using hlen)]
              congr 1
              rw [Bool.eq_iff_iff, decide_eq_true_iff, decide_eq_true_iff, List.cons_prefix_cons]
              simp
            · rw [if_pos hq, decide_eq_false]
              intro hpre
              rw [List.cons_prefix_cons] at hpre
              exact hq hpre.1

theorem Reads.drop {im : List (Option Line)} {bs : List Bytes} (h : Reads im bs) (n : Nat) : Reads (im.drop n) (bs.drop n) := by
  obtain ⟨ls, rfl, h⟩ := h
  refine ⟨ls.drop n, by rw [List.map_drop], ?_⟩
  unfold ReadsL at *
  rw [List.map_drop, h, List.map_drop]

theorem matchHunk_eq {im : List (Option Line)} {bs ps : List Bytes} {pre : List Line} {n : Nat} (h : Reads im bs) (hp : ReadsL pre ps) (hn : n ≤ bs.length) :
    matchHunk im pre n = .ok (decide (ps <+: bs.drop n)) := by
  unfold matchHunk
  rw [hp.length, h.length]
  by_cases hgt : ps.length + n > bs.length
  · rw [if_pos hgt, decide_eq_false]
    intro hpre
    have := hpre.length_le
    rw [List.length_drop] at this
    omega
  · rw [if_neg hgt]
    obtain ⟨ls, e, h'⟩ := h.drop n
    rw [e]
    exact matchLines_eq ls pre _ _ h' hp (by rw [List.length_drop]; omega)

theorem put_eq : ∀ (post : List Line) (a x b : List (Option Line)), x.length = post.length →
    put (a ++ x ++ b) a.length post = .ok (a ++ post.map some ++ b) := by
  intro post
  induction post with
  | nil =>
    intro a x b hx
    have : x = [] := List.length_eq_zero_iff.mp hx
    subst this
    rfl
  | cons l post ih =>
    intro a x b hx
    cases x with
    | nil => simp at hx
    | cons y x =>
      rw [put, if_pos (by simp)]
      have e : (a ++ (y :: x) ++ b).set a.length (some l) = (a ++ [some l]) ++ x ++ b := by
        rw [List.append_assoc, List.set_append_right _ _ (Nat.le_refl _), Nat.sub_self]
        simp
      have e2 : a.length + 1 = (a ++ [some l]).length := by simp
      rw [e, e2, ih (a ++ [some l]) x b (by simpa using hx)]
      simp

theorem updateHunk_eq (a p b : List (Option Line)) (pre post : List Line) (hp : p.length = pre.length) :
    updateHunk (a ++ p ++ b) a.length pre post = .ok (a ++ post.map some ++ b) := by
  unfold updateHunk makeRoom
  by_cases h1 : post.length > pre.length
  · have e : (a ++ p ++ b).take a.length ++ List.replicate (post.length - pre.length) none ++ (a ++ p ++ b).drop a.length =
        a ++ (List.replicate (post.length - pre.length) none ++ p) ++ b := by
      rw [List.append_assoc a p b, List.take_left, List.drop_left]
      simp
    rw [if_pos h1, if_pos (by simp), Res.bind_ok, e]
    exact put_eq post a _ b (by simp; omega)
  · rw [if_neg h1]
    by_cases h2 : pre.length > post.length
    · have e : (a ++ p ++ b).take a.length ++ (a ++ p ++ b).drop (a.length + (pre.length - post.length)) = a ++ p.drop (pre.length - post.length) ++ b := by
        rw [List.append_assoc a p b, List.take_left, ← List.drop_drop, List.drop_left, List.drop_append_of_le_length (by omega)]
        simp
      rw [if_pos h2, if_pos (by simp; omega), Res.bind_ok, e]
      exact put_eq post a _ b (by simp; omega)
    · rw [if_neg h2, Res.bind_ok]
      exact put_eq post a p b (by omega)

theorem splitLines_flatten : ∀ s : Bytes, (splitLines s).flatten = s := by
  intro s
  induction s with
  | nil => rfl
  | cons c r ih =>
    rw [splitLines]
    split
    · rw [List.flatten_cons, ih]; rfl
    · cases h : splitLines r with
      | nil => rw [h] at ih; rw [← ih]; rfl
      | cons l ls => rw [h] at ih; dsimp only; rw [List.flatten_cons, List.cons_append, ← List.flatten_cons, ih]

theorem splitLines_lines : ∀ s : Bytes, Lines (splitLines s) s := by
  intro s
  refine ⟨splitLines_flatten s, ?_⟩
  induction s with
  | nil => exact ⟨by simp [splitLines], by simp [splitLines], by simp [splitLines]⟩
  | cons c r ih =>
    obtain ⟨h1, h2, h3⟩ := ih
    rw [splitLines]
    split
    · rename_i hc
      refine ⟨?_, ?_, ?_⟩
      · intro l hl
        rcases List.mem_cons.mp hl with rfl | hl
        · simp
        · exact h1 l hl
      · intro l hl
        rcases List.mem_cons.mp hl with rfl | hl
        · simp
        · exact h2 l hl
      · intro l hl
        cases h : splitLines r with
        | nil => rw [h] at hl; simp at hl
        | cons x xs =>
          rw [h, List.dropLast_cons_cons] at hl
          rcases List.mem_cons.mp hl with rfl | hl
          · simp [hc]
          · exact h3 l (by rw [h]; exact hl)
    · rename_i hc
      cases h : splitLines r with
      | nil => exact ⟨by simp, by simp, by simp⟩
      | cons x xs =>
        rw [h] at h1 h2 h3
        have hx : x ≠ [] := h1 x List.mem_cons_self
        dsimp only
        refine ⟨?_, ?_, ?_⟩
        · intro l hl
          rcases List.mem_cons.mp hl with rfl | hl
          · simp
          · exact h1 l (List.mem_cons_of_mem _ hl)
        · intro l hl
          rcases List.mem_cons.mp hl with rfl | hl
          · rw [List.dropLast_cons_of_ne_nil hx, List.mem_cons, not_or]
            exact ⟨fun he => hc he.symm, h2 x List.mem_cons_self⟩
          · exact h2 l (List.mem_cons_of_mem _ hl)
        · intro l hl
          cases xs with
          | nil => simp at hl
          | cons y ys =>
            rw [List.dropLast_cons_cons] at hl h3
            rcases List.mem_cons.mp hl with rfl | hl
            · rw [List.getLast?_cons_of_ne_nil hx]
              exact h3 x List.mem_cons_self
            · exact h3 l (List.mem_cons_of_mem _ hl)

theorem lines_tail {l : Bytes} {ls : List Bytes} {t : Bytes} (h : Lines (l :: ls) t) : ls = [] ∨ l.getLast? = some c!"\n" := by
  cases ls with
  | nil => exact .inl rfl
  | cons x xs => exact .inr (h.2.2.2 l (by rw [List.dropLast_cons_cons]; exact List.mem_cons_self))

theorem splitLines_line : ∀ (l : Bytes) (rest : Bytes), c!"\n" ∉ l.dropLast → l.getLast? = some c!"\n" → splitLines (l ++ rest) = l :: splitLines rest := by
  intro l
  induction l with
  | nil => intro rest _ h; cases h
  | cons c l ih =>
    intro rest h1 h2
    cases hl : l with
    | nil =>
      subst hl
      simp only [List.getLast?_singleton, Option.some.injEq] at h2
      subst h2
      rfl
    | cons d l' =>
      have hne : l ≠ [] := by rw [hl]; simp
      rw [List.dropLast_cons_of_ne_nil hne, List.mem_cons, not_or] at h1
      rw [List.getLast?_cons_of_ne_nil hne] at h2
      rw [← hl, List.cons_append, splitLines, if_neg (fun he => h1.1 he.symm), ih rest h1.2 h2]

theorem splitLines_one : ∀ (l : Bytes), c!"\n" ∉ l.dropLast → l ≠ [] → splitLines l = [l] := by
  intro l
  induction l with
  | nil => intro _ h; exact absurd rfl h
  | cons c l ih =>
    intro h1 _
    cases hl : l with
    | nil => rw [splitLines]; split <;> rfl
    | cons d l' =>
      have hne : l ≠ [] := by rw [hl]; simp
      rw [List.dropLast_cons_of_ne_nil hne, List.mem_cons, not_or] at h1
      rw [← hl, splitLines, if_neg (fun he => h1.1 he.symm), ih h1.2 hne]

/-- there is one way to split a text -/
theorem lines_unique {ls : List Bytes} {t : Bytes} (h : Lines ls t) : ls = splitLines t := by
  induction ls generalizing t with
  | nil => rw [← h.1]; rfl
  | cons l ls ih =>
    have hl1 := h.2.1 l List.mem_cons_self
    have hl2 := h.2.2.1 l List.mem_cons_self
    have ht : Lines ls ls.flatten := by
      refine ⟨rfl, fun x hx => h.2.1 x (List.mem_cons_of_mem _ hx), fun x hx => h.2.2.1 x (List.mem_cons_of_mem _ hx), fun x hx => h.2.2.2 x ?_⟩
      cases ls with
      | nil => simp at hx
      | cons y ys => rw [List.dropLast_cons_cons]; exact List.mem_cons_of_mem _ hx
    rw [← h.1, List.flatten_cons]
    rcases lines_tail h with rfl | hnl
    · rw [List.flatten_nil, List.append_nil, splitLines_one l hl2 hl1]
    · rw [splitLines_line l _ hl2 hnl, ← ih ht]

theorem imageOf_reads {ls : List Bytes} {t : Bytes} (h : Lines ls t) : Reads (imageOf t) ls := by
  rw [lines_unique h]
  refine ⟨(splitLines t).map fun l => { origin := .context, buf := l, len := l.length }, by unfold imageOf; rw [List.map_map]; rfl, ?_⟩
  unfold ReadsL
  rw [List.map_map]
  refine List.map_congr_left fun l _ => ?_
  simp [Line.text]

theorem render_eq {im : List (Option Line)} {bs : List Bytes} (h : Reads im bs) : render im = .ok bs.flatten := by
  obtain ⟨ls, rfl, h⟩ := h
  induction ls generalizing bs with
  | nil =>
    have : bs = [] := List.length_eq_zero_iff.mp (by rw [← h.length]; rfl)
    subst this; rfl
  | cons l ls ih =>
    cases bs with
    | nil => have := h.length; simp at this
    | cons b bs =>
      obtain ⟨h1, h2⟩ := h.inv
      rw [List.map_cons, render, h1, Res.bind_ok, ih h2, Res.bind_ok, List.flatten_cons]

theorem originOf_eof (p : Piece) : isEof (originOf p) = false := by cases p <;> rfl

theorem Shows.head {l : Line} {ls : List Line} {ps : List Piece} (h : Shows (l :: ls) ps) : isEof l.origin = false := by
  cases h with
  | line h _ _ => rw [h, originOf_eof]
  | marked h _ _ _ _ _ => rw [h, originOf_eof]

theorem shrink_cons {l : Line} {ls ls' : List Line} {ps : List Piece} (h : Shows ls ps) (he : shrinkAll ls = .ok ls') : shrink l ls = .ok (l :: ls') := by
  cases ls with
  | nil => cases he; rfl
  | cons m ls =>
    rw [shrink, if_neg (by rw [h.head]; simp), Res.bind_ok]
    rw [show shrink m ls = .ok ls' from he, Res.bind_ok]

theorem endsNl_eq {l : Line} {t : Bytes} (h : l.text = .ok t) (hne : t ≠ []) : endsNl l = .ok (decide (t.getLast? = some c!"\n")) := by
  unfold Line.text at h
  split at h
  case isTrue hle =>
    have := Res.ok.inj h
    have hlen : t.length = l.len := by rw [← this, List.length_take]; omega
    have h0 : l.len ≠ 0 := by rw [← hlen]; simpa using hne
    unfold endsNl
    rw [if_neg h0]
    have hlt : l.len - 1 < l.buf.length := by omega
    have hg : t.getLast? = l.buf[l.len - 1]? := by
      rw [List.getLast?_eq_getElem?, hlen, ← this, List.getElem?_take, if_pos (by omega)]
    rw [hg, List.getElem?_eq_getElem hlt]
    simp
  case isFalse => cases h

theorem text_shorter {l : Line} {t : Bytes} {c : UInt8} (h : l.text = .ok (t ++ [c])) : ({ l with len := l.len - 1 } : Line).text = .ok t := by
  unfold Line.text at h
  split at h
  case isTrue hle =>
    have := Res.ok.inj h
    have hlen : t.length + 1 = l.len := by
      have := congrArg List.length this
      rw [List.length_take, List.length_append] at this
      simp at this
      omega
    unfold Line.text
    dsimp only
    rw [if_pos (by omega)]
    congr 1
    have e : l.buf.take (l.len - 1) = (l.buf.take l.len).take (l.len - 1) := by rw [List.take_take]; congr 1; omega
    rw [e, this, show l.len - 1 = t.length by omega, List.take_left]
  case isFalse => cases h

/-- the loop leaves lines whose texts are those of the pieces -/
theorem shrink_shows {ls : List Line} {ps : List Piece} (h : Shows ls ps) :
    ∃ ls', shrinkAll ls = .ok ls' ∧ ReadsL (preimage ls') (before ps) ∧ ReadsL (postimage ls') (after ps) ∧ Shows ls' ps := by
  induction h with
  | nil => exact ⟨[], rfl, rfl, rfl, .nil⟩
  | @line l ls p ps ho ht hs ih =>
    obtain ⟨ls', e, h1, h2, h3⟩ := ih
    refine ⟨l :: ls', shrink_cons hs e, ?_, ?_, .line ho ht h3⟩
    · unfold preimage
      rw [List.filter_cons, ho]
      cases p
      · exact ReadsL.cons ht h1
      · exact ReadsL.cons ht h1
      · exact h1
    · unfold postimage
      rw [List.filter_cons, ho]
      cases p
      · exact ReadsL.cons ht h2
      · exact h2
      · exact ReadsL.cons ht h2
  | @marked l m ls p ps ho hm hne hnl ht hs ih =>
    obtain ⟨ls', e, h1, h2, h3⟩ := ih
    have key : ∃ l', shrink l (m :: ls) = .ok (l' :: m :: ls') ∧ l'.origin = originOf p ∧ l'.text = .ok (textOf p) := by
      rw [shrink, if_pos hm, shrink_cons hs e]
      rcases ht with ht | ht
      · rw [endsNl_eq ht hne, Res.bind_ok, decide_eq_false hnl]
        exact ⟨l, rfl, ho, ht⟩
      · rw [endsNl_eq ht (by simp), Res.bind_ok, decide_eq_true (by simp)]
        exact ⟨{ l with len := l.len - 1 }, rfl, ho, text_shorter ht⟩
    obtain ⟨l', e', ho', ht'⟩ := key
    have hmo : m.origin ≠ .context ∧ m.origin ≠ .deletion ∧ m.origin ≠ .addition := by
      unfold isEof at hm
      refine ⟨?_, ?_, ?_⟩ <;> intro hc <;> rw [hc] at hm <;> simp at hm
    refine ⟨l' :: m :: ls', e', ?_, ?_, .marked ho' hm hne hnl (.inl ht') h3⟩
    · unfold preimage
      rw [List.filter_cons, ho', List.filter_cons_of_neg (by simp [hmo.1, hmo.2.1])]
      cases p
      · exact ReadsL.cons ht' h1
      · exact ReadsL.cons ht' h1
      · exact h1
    · unfold postimage
      rw [List.filter_cons, ho', List.filter_cons_of_neg (by simp [hmo.1, hmo.2.2])]
      cases p
      · exact ReadsL.cons ht' h2
      · exact h2
      · exact ReadsL.cons ht' h2

/-- what a hunk does to an image -/
theorem applyHunk_eq {st : State} {h : Hunk} {ps : List Piece} {bs : List Bytes} (hs : Shows h.lines ps) (hr : Reads st.image bs) :
    ∃ lines', shrinkAll h.lines = .ok lines' ∧ Shows lines' ps ∧
    applyHunk 0 st h = (if before ps <+: bs.drop (min (lineNum st h) bs.length) then
      updateHunk st.image (min (lineNum st h) bs.length) (preimage lines') (postimage lines') >>= fun image =>
        .ok ({ st with image := image }, { h with lines := lines' })
      else .err EAPPLYFAIL) := by
  obtain ⟨ls', e, h1, h2, h3⟩ := shrink_shows hs
  refine ⟨ls', e, h3, ?_⟩
  unfold applyHunk
  rw [if_neg (by omega), if_neg (by omega), e, Res.bind_ok]
  unfold findHunk
  have hmin : (if lineNum st h > st.image.length then st.image.length else lineNum st h) = min (lineNum st h) bs.length := by
    rw [hr.length]
    split <;> omega
  simp only [hmin]
  rw [matchHunk_eq hr h1 (Nat.min_le_right _ _), Res.bind_ok, Res.bind_ok]
  dsimp only
  by_cases hp : before ps <+: bs.drop (min (lineNum st h) bs.length)
  · rw [if_pos hp, if_neg (by simp [hp])]
  · rw [if_neg hp, if_pos (by simp [hp])]

theorem applyHunk_at {st : State} {h : Hunk} {ps : List Piece} {a b : List Bytes} (hs : Shows h.lines ps) (hr : Reads st.image (a ++ before ps ++ b))
    (hn : min (lineNum st h) (a ++ before ps ++ b).length = a.length) :
    ∃ im lines', applyHunk 0 st h = .ok ({ st with image := im }, { h with lines := lines' }) ∧ Reads im (a ++ after ps ++ b) ∧ Shows lines' ps := by
  obtain ⟨ls', e, h1, h2, h3⟩ := shrink_shows hs
  obtain ⟨lines', e', h3', he⟩ := applyHunk_eq hs hr
  rw [e] at e'
  cases e'
  obtain ⟨ab, bi, hi, hr1, hr2⟩ := hr.split
  obtain ⟨ai, pi, rfl, hr3, hr4⟩ := hr1.split
  rw [he, hn, if_pos]
  · rw [hi, ← hr3.length, updateHunk_eq ai pi bi _ _ (by rw [hr4.length, h1.length]), Res.bind_ok]
    exact ⟨_, _, rfl, (hr3.append h2.reads).append hr2, h3⟩
  · rw [List.append_assoc, List.drop_left]
    exact List.prefix_append _ _

end Verif.Patch
