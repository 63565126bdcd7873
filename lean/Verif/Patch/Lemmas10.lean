import Verif.Patch.Lemmas9
/-! # A patch that was read can be applied safely -/
namespace Verif.Patch
open Spec

theorem bind_inv {α β : Type} {x : Res α} {f : α → Res β} {b : β} (h : (x >>= f) = .ok b) : ∃ a, x = .ok a ∧ f a = .ok b := by
  cases x with
  | ok a => exact ⟨a, rfl, h⟩
  | err _ => cases h
  | ub => cases h

theorem afterLine_suffix (r : Bytes) : afterLine r <:+ r := by
  induction r with
  | nil => exact List.suffix_refl _
  | cons c r ih =>
    rw [afterLine]
    split
    · exact List.suffix_cons _ _
    · exact ih.trans (List.suffix_cons _ _)

theorem lineOf_prefix (r : Bytes) : lineOf r <+: r := by
  induction r with
  | nil => exact List.prefix_refl _
  | cons c r ih =>
    rw [lineOf]
    split
    · exact ⟨r, rfl⟩
    · exact List.cons_prefix_cons.mpr ⟨rfl, ih⟩

theorem expect_suffix {rest s r : Bytes} (h : expect rest s = .ok r) : r <:+ rest := by
  unfold expect at h
  split at h
  · cases h; exact List.drop_suffix _ _
  · cases h

theorem parseInt_suffix {rest : Bytes} {p : Int × Bytes} (h : parseInt rest = .ok p) : p.2 <:+ rest := by
  unfold parseInt at h
  split at h
  · cases h
  · obtain ⟨a, _, h⟩ := bind_inv h
    split at h
    · cases h
    · cases h; exact List.drop_suffix _ _

theorem parseRange_suffix {rest : Bytes} {p : (Int × Int) × Bytes} (h : parseRange rest = .ok p) : p.2 <:+ rest := by
  unfold parseRange at h
  obtain ⟨a, h1, h⟩ := bind_inv h
  have := parseInt_suffix h1
  split at h
  · obtain ⟨b, h2, h⟩ := bind_inv h
    cases h
    exact ((parseInt_suffix h2).trans (List.drop_suffix _ _)).trans this
  · cases h; exact this

theorem parseHeader_suffix {rest : Bytes} {p : Hunk × Bytes} (h : parseHeader rest = .ok p) : p.2 <:+ rest := by
  unfold parseHeader at h
  obtain ⟨a, h1, h⟩ := bind_inv h
  obtain ⟨b, h2, h⟩ := bind_inv h
  obtain ⟨c, h3, h⟩ := bind_inv h
  obtain ⟨d, h4, h⟩ := bind_inv h
  obtain ⟨e, h5, h⟩ := bind_inv h
  dsimp only at h
  split at h
  · cases h
  · split at h
    · cases h
    · cases h
      exact (afterLine_suffix e).trans ((expect_suffix h5).trans ((parseRange_suffix h4).trans ((expect_suffix h3).trans ((parseRange_suffix h2).trans (expect_suffix h1)))))

/-- a line that has just been read -/
def Fresh (l : Line) : Prop := ∃ o t, l = dupLine o t ∧ t ≠ [] ∧ 0 ∉ t

theorem not_mem_suffix {a b : Bytes} (h : a <:+ b) (hb : (0 : UInt8) ∉ b) : (0 : UInt8) ∉ a := fun hm => hb (h.mem hm)

theorem parseBody_fresh (h : Hunk) : ∀ (fuel : Nat) (rest : Bytes) (o n : Int) (last : Option Origin) (r : List Line × (Int × Int) × Option Origin × Bytes),
    0 ∉ rest → parseBody h fuel rest o n last = .ok r → (∀ l ∈ r.1, Fresh l) ∧ r.2.2.2 <:+ rest := by
  intro fuel
  induction fuel with
  | zero =>
    intro rest o n last r _ he
    rw [parseBody] at he
    cases he
    exact ⟨by simp, List.suffix_refl _⟩
  | succ fuel ih =>
    intro rest o n last r hz he
    rw [parseBody] at he
    split at he
    · split at he
      · cases he
      · split at he
        · cases he
        · rename_i hcond _ hnl
          obtain ⟨k, hk, he⟩ := bind_inv he
          obtain ⟨r', h1, he⟩ := bind_inv he
          cases he
          obtain ⟨i1, i2⟩ := ih _ _ _ _ r' (not_mem_suffix (afterLine_suffix rest) hz) h1
          refine ⟨fun l hl => ?_, i2.trans (afterLine_suffix rest)⟩
          rcases List.mem_cons.mp hl with rfl | hl
          · refine ⟨_, _, rfl, ?_, fun hm => hz ((lineOf_prefix rest).mem (List.mem_of_mem_drop hm))⟩
            have hnl' : (lineOf rest).getLast? = some c!"\n" := by simpa using hnl
            -- the length of the line
            cases rest with
            | nil => simp [lineOf] at hnl'
            | cons c r =>
              have key : k.1 = 0 ∨ (k.1 = 1 ∧ c ≠ c!"\n") := by
                have hd : (c :: r).headD 0 = c := rfl
                generalize (c :: r).headD 0 = d at hk hd
                rw [← hd]
                split at hk
                · cases hk; exact .inl rfl
                · rename_i c0
                  have hz : ∀ {x : Nat × Origin × Int × Int}, Res.ok x = Res.ok k → x.1 = 0 ∨ x.1 = 1 → k.1 = 0 ∨ (k.1 = 1 ∧ d ≠ c!"\n") := by
                    intro x hx h01
                    cases hx
                    rcases h01 with h | h
                    · exact .inl h
                    · exact .inr ⟨h, c0⟩
                  split at hk
                  · exact hz hk (.inr rfl)
                  · split at hk
                    · exact hz hk (.inr rfl)
                    · split at hk
                      · exact hz hk (.inr rfl)
                      · split at hk
                        · exact hz hk (.inl rfl)
                        · cases hk
              rcases key with hk0 | ⟨hk1, hc⟩
              · rw [hk0, List.drop_zero, lineOf]
                split <;> simp
              · rw [hk1]
                rw [lineOf, if_neg hc] at hnl' ⊢
                rw [List.drop_succ_cons, List.drop_zero]
                intro he0
                rw [he0] at hnl'
                simp only [List.getLast?_singleton, Option.some.injEq] at hnl'
                exact hc hnl'
          · exact i1 l hl
    · cases he
      exact ⟨by simp, List.suffix_refl _⟩

theorem parseHunkBody_fresh {h : Hunk} {seen : Bool} {rest : Bytes} {r : Hunk × Bytes} (hz : 0 ∉ rest) (he : parseHunkBody h seen rest = .ok r) : (∀ l ∈ r.1.lines, Fresh l) ∧ r.2 <:+ rest := by
  unfold parseHunkBody at he
  obtain ⟨a, h1, he⟩ := bind_inv he
  obtain ⟨i1, i2⟩ := parseBody_fresh h _ _ _ _ _ a hz h1
  split at he
  · cases he
  · split at he
    · rename_i hm
      cases he
      refine ⟨fun l hl => ?_, (afterLine_suffix _).trans i2⟩
      rcases List.mem_append.mp hl with hl | hl
      · exact i1 l hl
      · rw [List.mem_singleton.mp hl]
        refine ⟨_, _, rfl, ?_, fun h0 => not_mem_suffix i2 hz ((lineOf_prefix _).mem h0)⟩
        have h2 := hm.1
        unfold contains at h2
        simp only [decide_eq_true_eq] at h2
        intro e
        rw [e] at h2
        simp at h2
    · cases he
      exact ⟨i1, i2⟩

theorem parseHunks_fresh : ∀ (fuel : Nat) (seen : Bool) (rest : Bytes) (r : List Hunk × Bytes), 0 ∉ rest → parseHunks fuel seen rest = .ok r → ∀ h ∈ r.1, ∀ l ∈ h.lines, Fresh l := by
  intro fuel
  induction fuel with
  | zero =>
    intro seen rest r _ he
    cases he
    intro h hh
    cases hh
  | succ fuel ih =>
    intro seen rest r hz he
    rw [parseHunks] at he
    split at he
    · obtain ⟨a, h1, he⟩ := bind_inv he
      obtain ⟨b, h2, he⟩ := bind_inv he
      obtain ⟨c, h3, he⟩ := bind_inv he
      cases he
      have z1 := not_mem_suffix (parseHeader_suffix h1) hz
      obtain ⟨j1, j2⟩ := parseHunkBody_fresh z1 h2
      intro h hh
      rcases List.mem_cons.mp hh with rfl | hh
      · exact j1
      · exact ih _ _ c (not_mem_suffix j2 z1) h3 h hh
    · cases he
      intro h hh
      cases hh

theorem Fresh.text {l : Line} (h : Fresh l) : ∃ t, l.text = .ok t ∧ t ≠ [] := by
  obtain ⟨o, t, rfl, h1, h2⟩ := h
  exact ⟨t, dupLine_text h2, h1⟩

theorem text_le {l : Line} {t : Bytes} (h : l.text = .ok t) : l.len ≤ l.buf.length := by
  unfold Line.text at h
  split at h
  · assumption
  · cases h

theorem shrink_fresh : ∀ (ls : List Line) (prev : Line), Fresh prev → (∀ l ∈ ls, Fresh l) → ∃ ls', shrink prev ls = .ok ls' ∧ ∀ l ∈ ls', l.len ≤ l.buf.length := by
  intro ls
  induction ls with
  | nil =>
    intro prev hp _
    obtain ⟨t, ht, _⟩ := hp.text
    exact ⟨[prev], rfl, fun l hl => by rw [List.mem_singleton.mp hl]; exact text_le ht⟩
  | cons l ls ih =>
    intro prev hp hl
    obtain ⟨ls', e, h⟩ := ih l (hl l List.mem_cons_self) fun x hx => hl x (List.mem_cons_of_mem _ hx)
    obtain ⟨t, ht, hne⟩ := hp.text
    have hlen := text_le ht
    have key : ∃ p', (if isEof l.origin then endsNl prev >>= fun b => .ok (if b then { prev with len := prev.len - 1 } else prev) else .ok prev : Res Line) = .ok p' ∧ p'.len ≤ p'.buf.length := by
      by_cases hm : isEof l.origin = true
      · rw [if_pos hm, endsNl_eq ht hne, Res.bind_ok]
        refine ⟨_, rfl, ?_⟩
        split
        · dsimp only; omega
        · exact hlen
      · rw [if_neg hm]
        exact ⟨prev, rfl, hlen⟩
    obtain ⟨p', e', h'⟩ := key
    rw [shrink, e', Res.bind_ok, e, Res.bind_ok]
    exact ⟨p' :: ls', rfl, fun x hx => by
      rcases List.mem_cons.mp hx with rfl | hx
      · exact h'
      · exact h x hx⟩

theorem readsL_of : ∀ ls : List Line, (∀ l ∈ ls, l.len ≤ l.buf.length) → ∃ bs, ReadsL ls bs := by
  intro ls
  induction ls with
  | nil => intro _; exact ⟨[], .nil⟩
  | cons l ls ih =>
    intro h
    obtain ⟨bs, hb⟩ := ih fun x hx => h x (List.mem_cons_of_mem _ hx)
    exact ⟨l.buf.take l.len :: bs, .cons (by unfold Line.text; rw [if_pos (h l List.mem_cons_self)]) hb⟩

theorem applyHunk_safe {answer : Int} {st : State} {h : Hunk} {bs : List Bytes} (hr : Reads st.image bs) (hf : ∀ l ∈ h.lines, Fresh l) :
    (∃ e, applyHunk answer st h = .err e) ∨ ∃ r bs', applyHunk answer st h = .ok r ∧ Reads r.1.image bs' := by
  unfold applyHunk
  by_cases h1 : answer > 0
  · rw [if_pos h1]
    exact .inr ⟨_, bs, rfl, hr⟩
  · rw [if_neg h1]
    by_cases h2 : answer < 0
    · rw [if_pos h2]; exact .inl ⟨_, rfl⟩
    · rw [if_neg h2]
      have hsh : ∃ ls', shrinkAll h.lines = .ok ls' ∧ ∀ l ∈ ls', l.len ≤ l.buf.length := by
        cases hl : h.lines with
        | nil => exact ⟨[], rfl, by simp⟩
        | cons l ls =>
          rw [hl] at hf
          exact shrink_fresh ls l (hf l List.mem_cons_self) fun x hx => hf x (List.mem_cons_of_mem _ hx)
      obtain ⟨ls', e, hle⟩ := hsh
      rw [e, Res.bind_ok]
      obtain ⟨ps, hps⟩ := readsL_of (preimage ls') fun l hl => hle l (List.mem_of_mem_filter hl)
      obtain ⟨qs, hqs⟩ := readsL_of (postimage ls') fun l hl => hle l (List.mem_of_mem_filter hl)
      unfold findHunk
      have hmin : (if lineNum st h > st.image.length then st.image.length else lineNum st h) = min (lineNum st h) bs.length := by
        rw [hr.length]
        split <;> omega
      simp only [hmin]
      rw [matchHunk_eq hr hps (Nat.min_le_right _ _), Res.bind_ok, Res.bind_ok]
      dsimp only
      by_cases hp : ps <+: bs.drop (min (lineNum st h) bs.length)
      · rw [if_neg (by simp [hp])]
        obtain ⟨t, ht⟩ := hp
        have ex : bs = bs.take (min (lineNum st h) bs.length) ++ ps ++ t := by rw [List.append_assoc, ht, List.take_append_drop]
        have lx : (bs.take (min (lineNum st h) bs.length)).length = min (lineNum st h) bs.length := by rw [List.length_take]; omega
        generalize bs.take (min (lineNum st h) bs.length) = x at *
        rw [ex] at hr
        obtain ⟨ab, bi, hi, hr1, hr2⟩ := hr.split
        obtain ⟨ai, pi, rfl, hr3, hr4⟩ := hr1.split
        rw [hi, ← lx, ← hr3.length, updateHunk_eq ai pi bi _ _ (by rw [hr4.length, hps.length]), Res.bind_ok]
        exact .inr ⟨_, _, rfl, (hr3.append hqs.reads).append hr2⟩
      · rw [if_pos (by simp [hp])]
        exact .inl ⟨_, rfl⟩

theorem applyAll_safe (answers : Nat → Int) : ∀ (hs : List Hunk) (k : Nat) (st : State) (bs : List Bytes), Reads st.image bs → (∀ h ∈ hs, ∀ l ∈ h.lines, Fresh l) →
    (∃ e, applyAll answers k st hs = .err e) ∨ ∃ r bs', applyAll answers k st hs = .ok r ∧ Reads r.1.image bs' := by
  intro hs
  induction hs with
  | nil => intro k st bs hr _; exact .inr ⟨_, bs, rfl, hr⟩
  | cons h hs ih =>
    intro k st bs hr hf
    rw [applyAll]
    rcases applyHunk_safe (answer := answers k) hr (hf h List.mem_cons_self) with ⟨e, he⟩ | ⟨r, bs', he, hr'⟩
    · rw [he]; exact .inl ⟨e, rfl⟩
    · rw [he, Res.bind_ok]
      rcases ih (k + 1) r.1 bs' hr' fun x hx => hf x (List.mem_cons_of_mem _ hx) with ⟨e, he⟩ | ⟨r2, bs2, he, hr2⟩
      · rw [he]; exact .inl ⟨e, rfl⟩
      · rw [he, Res.bind_ok]; exact .inr ⟨_, bs2, rfl, hr2⟩

end Verif.Patch
