import Verif.Index.Lemmas
/-! Lemmas about the loops that remove a run of entries, and about the conflict functions. -/
namespace Verif.Index

theorem getElem?_append_cons {α : Type} {pre suf : List α} {x : α} : (pre ++ x :: suf)[pre.length]? = some x := by simp

theorem eraseIdx_append_cons {α : Type} {pre suf : List α} {x : α} : (pre ++ x :: suf).eraseIdx pre.length = pre ++ suf := by
  induction pre with
  | nil => rfl
  | cons y ys ih => simpa using ih

/-- the specification of a removal loop on the part from its position on -/
def runSpec (go kill : Entry → Bool) (l : List Entry) : List Entry := (l.takeWhile go).filter (fun e => ! kill e) ++ l.dropWhile go

theorem conflictRemoveLoop_ok (path : Option Bytes) (fuel : Nat) : ∀ (pre suf : List Entry) (m), Inv ⟨pre ++ suf, m⟩ → suf.length < fuel →
    ∃ st', conflictRemoveLoop path fuel pre.length ⟨pre ++ suf, m⟩ = .ok st' ∧ Inv st' ∧
      st'.entries = pre ++ runSpec (fun e => decide (path = none ∨ path = some e.path)) (fun e => decide (e.stage ≠ 0)) suf := by
  induction fuel with
  | zero => intro pre suf m _ h; omega
  | succ fuel ih =>
    intro pre suf m hi hf
    rw [conflictRemoveLoop]
    cases suf with
    | nil =>
      have : (pre ++ ([] : List Entry))[pre.length]? = none := by simp
      simp only [this]
      exact ⟨_, rfl, hi, by simp [runSpec]⟩
    | cons e es =>
      simp only [getElem?_append_cons]
      by_cases hgo : path = none ∨ path = some e.path
      · have hng : ¬ (path.isSome = true ∧ path ≠ some e.path) := by
          rintro ⟨h1, h2⟩
          rcases hgo with h | h
          · rw [h] at h1; cases h1
          · exact h2 h
        rw [if_neg hng]
        by_cases hs : e.stage = 0
        · rw [if_pos hs]
          have hi' : Inv ⟨(pre ++ [e]) ++ es, m⟩ := by simpa using hi
          obtain ⟨st', h1, h2, h3⟩ := ih (pre ++ [e]) es m hi' (by simp at hf; omega)
          refine ⟨st', ?_, h2, ?_⟩
          · simpa using h1
          · rw [h3]; simp [runSpec, hgo, hs]
        · rw [if_neg hs]
          obtain ⟨st1, e1, i1, -, l1⟩ := removeEntry_ok hi (getElem?_append_cons (pre := pre) (suf := es) (x := e))
          rw [e1]
          simp only
          obtain ⟨ents, m1⟩ := st1
          simp only at l1
          rw [eraseIdx_append_cons] at l1
          subst l1
          obtain ⟨st', h1, h2, h3⟩ := ih pre es m1 i1 (by simp at hf; omega)
          exact ⟨st', h1, h2, by rw [h3]; simp [runSpec, hgo, hs]⟩
      · have hng : path.isSome = true ∧ path ≠ some e.path := by
          cases path with
          | none => simp at hgo
          | some p => exact ⟨rfl, fun h => hgo (.inr h)⟩
        rw [if_pos hng]
        exact ⟨_, rfl, hi, by simp [runSpec, hgo]⟩

theorem removeDirLoop_ok (pfx : Bytes) (stage : Nat) (fuel : Nat) : ∀ (pre suf : List Entry) (m), Inv ⟨pre ++ suf, m⟩ → suf.length < fuel →
    ∃ st', removeDirLoop pfx stage fuel pre.length ⟨pre ++ suf, m⟩ = .ok st' ∧ Inv st' ∧
      st'.entries = pre ++ runSpec (fun e => decide (pfx <+: e.path)) (fun e => decide (e.stage = stage)) suf := by
  induction fuel with
  | zero => intro pre suf m _ h; omega
  | succ fuel ih =>
    intro pre suf m hi hf
    rw [removeDirLoop]
    cases suf with
    | nil =>
      have : (pre ++ ([] : List Entry))[pre.length]? = none := by simp
      simp only [this]
      exact ⟨_, rfl, hi, by simp [runSpec]⟩
    | cons e es =>
      simp only [getElem?_append_cons]
      by_cases hgo : pfx <+: e.path
      · rw [if_neg (not_not_intro hgo)]
        by_cases hs : e.stage = stage
        · rw [if_neg (not_not_intro hs)]
          obtain ⟨st1, e1, i1, -, l1⟩ := removeEntry_ok hi (getElem?_append_cons (pre := pre) (suf := es) (x := e))
          rw [e1]
          simp only
          obtain ⟨ents, m1⟩ := st1
          simp only at l1
          rw [eraseIdx_append_cons] at l1
          subst l1
          obtain ⟨st', h1, h2, h3⟩ := ih pre es m1 i1 (by simp at hf; omega)
          exact ⟨st', h1, h2, by rw [h3]; simp [runSpec, hgo, hs]⟩
        · rw [if_pos hs]
          have hi' : Inv ⟨(pre ++ [e]) ++ es, m⟩ := by simpa using hi
          obtain ⟨st', h1, h2, h3⟩ := ih (pre ++ [e]) es m hi' (by simp at hf; omega)
          refine ⟨st', ?_, h2, ?_⟩
          · simpa using h1
          · rw [h3]; simp [runSpec, hgo, hs]
      · rw [if_pos hgo]
        exact ⟨_, rfl, hi, by simp [runSpec, hgo]⟩

/-- when `go` is convex on the rest and false before it, the loop filters the whole index -/
theorem runSpec_filter {go kill : Entry → Bool} {pre suf : List Entry} (h1 : ∀ x ∈ pre, go x = false) (h2 : ∀ x ∈ suf.dropWhile go, go x = false) :
    pre ++ runSpec go kill suf = (pre ++ suf).filter (fun e => ! (go e && kill e)) := by
  rw [List.filter_append]
  congr 1
  · symm; rw [List.filter_eq_self]; intro x hx; simp [h1 x hx]
  · unfold runSpec
    conv => rhs; rw [← List.takeWhile_append_dropWhile (p := go) (l := suf), List.filter_append]
    congr 1
    · apply List.filter_congr
      intro x hx
      have : go x = true := by
        have := List.all_takeWhile (p := go) (l := suf)
        rw [List.all_eq_true] at this
        exact this x hx
      simp [this]
    · symm; rw [List.filter_eq_self]; intro x hx; simp [h2 x hx]

/-- on a list where `go` cannot come back once it is lost -/
theorem dropWhile_false {go : Entry → Bool} {R : Entry → Entry → Prop} {l : List Entry} (hl : l.Pairwise R)
    (hc : ∀ a ∈ l, ∀ b ∈ l, R a b → go a = false → go b = false) : ∀ x ∈ l.dropWhile go, go x = false := by
  induction l with
  | nil => simp
  | cons a as ih =>
    rw [List.pairwise_cons] at hl
    intro x hx
    by_cases ha : go a = true
    · rw [List.dropWhile_cons_of_pos ha] at hx
      exact ih hl.2 (fun a h b h' => hc a (by simp [h]) b (by simp [h'])) x hx
    · rw [List.dropWhile_cons_of_neg (by simpa using ha)] at hx
      have ha : go a = false := by simpa using ha
      rcases List.mem_cons.mp hx with rfl | hx
      · exact ha
      · exact hc a (by simp) x (by simp [hx]) (hl.1 x hx) ha

/-! ## Finding the first entry of a path -/

theorem entryCmp_path {a b : Entry} (h : entryCmp a b < 0) : bcmp a.path b.path ≤ 0 := by
  unfold entryCmp at h
  simp only at h
  split at h <;> omega

theorem searchable_path {es : List Entry} (h : es.Pairwise (fun a b => entryCmp a b < 0)) (p : Bytes) : Sort.Spec.Searchable (entrySrchPath p) es := by
  unfold Sort.Spec.Searchable entrySrchPath
  apply h.imp
  intro a b hab
  have h1 := bcmp_le.mp (entryCmp_path hab)
  constructor
  · intro hb
    have hb' : bcmp b.path p < 0 := by rw [bcmp_neg]; omega
    have : a.path < p := B.lt_of_le_of_lt h1 (bcmp_lt.mp hb')
    have := bcmp_lt.mpr this
    rw [bcmp_neg]; omega
  · intro ha
    exact bcmp_lt.mpr (B.lt_of_lt_of_le (bcmp_lt.mp ha) h1)

theorem walkBack_ok (st : St) (path : Bytes) (pos : Nat) (hp : pos ≤ st.entries.length) :
    walkBack st path pos ≤ pos ∧ (∀ i e, walkBack st path pos ≤ i → i < pos → st.entries[i]? = some e → e.path = path) ∧
    (0 < walkBack st path pos → ∃ e, st.entries[walkBack st path pos - 1]? = some e ∧ e.path ≠ path) := by
  induction pos with
  | zero => exact ⟨Nat.le_refl _, by intro i e _ h; omega, by simp [walkBack]⟩
  | succ pos ih =>
    rw [walkBack]
    have hlt : pos < st.entries.length := by omega
    simp only [List.getElem?_eq_getElem hlt]
    split
    · rename_i hne
      refine ⟨Nat.le_refl _, by intro i e h1 h2; omega, fun _ => ⟨_, by rw [Nat.add_sub_cancel]; exact List.getElem?_eq_getElem hlt, ?_⟩⟩
      intro h; exact hne (bcmp_zero.mpr h)
    · rename_i heq
      have heq : st.entries[pos].path = path := bcmp_zero.mp (by simpa using heq)
      obtain ⟨h1, h2, h3⟩ := ih (by omega)
      refine ⟨by omega, ?_, h3⟩
      intro i e g1 g2 g3
      by_cases hi : i = pos
      · subst hi; rw [List.getElem?_eq_getElem hlt] at g3; cases g3; exact heq
      · exact h2 i e g1 (by omega) g3

theorem path_le_of_idx {st : St} (hi : Inv st) {i j : Nat} {a b : Entry} (ha : st.entries[i]? = some a) (hb : st.entries[j]? = some b) (h : i < j) :
    a.path ≤ b.path := by
  have := hi.sorted
  rw [List.pairwise_iff_getElem] at this
  obtain ⟨h1, rfl⟩ := List.getElem?_eq_some_iff.mp ha
  obtain ⟨h2, rfl⟩ := List.getElem?_eq_some_iff.mp hb
  exact bcmp_le.mp (entryCmp_path (this _ _ h1 h2 h))

/-- the position found splits the index into entries with a smaller path, and entries with a path that is not smaller -/
theorem findPath_ok {st : St} (hi : Inv st) (path : Bytes) :
    (findPath st path = .err ENOTFOUND ∧ ∀ x ∈ st.entries, x.path ≠ path) ∨
    ∃ pos, findPath st path = .ok pos ∧ pos ≤ st.entries.length ∧ (∃ e, st.entries[pos]? = some e ∧ e.path = path) ∧
      (∀ x ∈ st.entries.take pos, x.path < path) ∧ (∀ x ∈ st.entries.drop pos, path ≤ x.path) := by
  unfold findPath
  obtain ⟨found, pos, h1, h2, h3, h4⟩ := Sort.C26_bsearch _ _ (searchable_path hi.sorted path)
  rw [h1]
  cases found with
  | false =>
    left
    refine ⟨rfl, ?_⟩
    intro x hx hp
    have := h2.mpr ⟨x, hx, bcmp_zero.mpr hp.symm⟩
    cases this
  | true =>
    right
    obtain ⟨x, hx, h0⟩ := h3 rfl
    have hxp : x.path = path := (bcmp_zero.mp h0).symm
    have hlt := (List.getElem?_eq_some_iff.mp hx).1
    obtain ⟨w1, w2, w3⟩ := walkBack_ok st path pos (by omega)
    have hfirst : ∃ e, st.entries[walkBack st path pos]? = some e ∧ e.path = path := by
      by_cases hw : walkBack st path pos = pos
      · exact ⟨x, by rw [hw]; exact hx, hxp⟩
      · have hwl : walkBack st path pos < st.entries.length := by omega
        exact ⟨_, List.getElem?_eq_getElem hwl, w2 _ _ (Nat.le_refl _) (by omega) (List.getElem?_eq_getElem hwl)⟩
    refine ⟨_, rfl, by omega, hfirst, ?_, ?_⟩
    · obtain ⟨e, he, hep⟩ := hfirst
      intro y hy
      obtain ⟨i, hi2⟩ := List.mem_iff_getElem?.mp hy
      rw [List.getElem?_take] at hi2
      split at hi2
      · rename_i hiw
        obtain ⟨z, hz, hzp⟩ := w3 (by omega)
        have hzle := path_le_of_idx hi hz he (by omega)
        rw [hep] at hzle
        have hzlt : z.path < path := B.lt_of_le_of_ne hzle hzp
        by_cases hil : i = walkBack st path pos - 1
        · subst hil; rw [hz] at hi2; cases hi2; exact hzlt
        · exact B.lt_of_le_of_lt (path_le_of_idx hi hi2 hz (by omega)) hzlt
      · cases hi2
    · obtain ⟨e, he, hep⟩ := hfirst
      intro y hy
      obtain ⟨i, hi2⟩ := List.mem_iff_getElem?.mp hy
      rw [List.getElem?_drop] at hi2
      by_cases h0 : i = 0
      · subst h0
        rw [Nat.add_zero, he] at hi2; cases hi2; rw [hep]; exact B.le_rfl
      · have := path_le_of_idx hi he hi2 (by omega)
        rw [hep] at this; exact this

theorem split_at {l : List Entry} {pos : Nat} (h : pos ≤ l.length) : (l.take pos).length = pos := by rw [List.length_take]; omega

theorem conflictRemove_ok {st : St} (hi : Inv st) (path : Bytes) :
    (conflictRemove st path = .err ENOTFOUND ∧ ∀ x ∈ st.entries, x.path ≠ path) ∨
    ∃ st', conflictRemove st path = .ok st' ∧ Inv st' ∧ (∃ x ∈ st.entries, x.path = path) ∧
      st'.entries = st.entries.filter (fun e => ! (decide (e.path = path) && decide (e.stage ≠ 0))) := by
  unfold conflictRemove
  rcases findPath_ok hi path with ⟨h1, h2⟩ | ⟨pos, h1, h2, ⟨e, he, hep⟩, h4, h5⟩
  · left; rw [h1]; exact ⟨rfl, h2⟩
  · right
    rw [h1]
    obtain ⟨ents, m⟩ := st
    simp only at *
    have hsplit := List.take_append_drop pos ents
    have hl := split_at h2
    have hi' : Inv ⟨ents.take pos ++ ents.drop pos, m⟩ := by rw [hsplit]; exact hi
    obtain ⟨st', g1, g2, g3⟩ := conflictRemoveLoop_ok (some path) (ents.length + 1) (ents.take pos) (ents.drop pos) m hi' (by simp; omega)
    rw [hl, hsplit] at g1
    refine ⟨st', g1, g2, ⟨e, List.mem_of_getElem? he, hep⟩, ?_⟩
    rw [g3, runSpec_filter, hsplit]
    · apply List.filter_congr
      intro x _
      simp [eq_comm]
    · intro x hx
      have : x.path ≠ path := B.ne_of_lt (h4 x hx)
      simp [Ne.symm this]
    · have hs : (ents.drop pos).Pairwise (fun a b => entryCmp a b < 0) := hi.sorted.sublist (List.drop_sublist _ _)
      apply dropWhile_false hs
      intro a ha b hb hab hga
      have h6 : path ≠ a.path := by simpa using hga
      have h7 : path < a.path := B.lt_of_le_of_ne (h5 a ha) h6
      have h8 : path < b.path := B.lt_of_lt_of_le h7 (bcmp_le.mp (entryCmp_path hab))
      simp [B.ne_of_lt h8]

theorem conflictCleanup_ok {st : St} (hi : Inv st) :
    ∃ st', conflictCleanup st = .ok st' ∧ Inv st' ∧ st'.entries = st.entries.filter (fun e => decide (e.stage = 0)) := by
  unfold conflictCleanup
  obtain ⟨ents, m⟩ := st
  obtain ⟨st', g1, g2, g3⟩ := conflictRemoveLoop_ok none (ents.length + 1) [] ents m (by simpa using hi) (by omega)
  refine ⟨st', g1, g2, ?_⟩
  rw [g3, runSpec_filter (by simp)]
  · apply List.filter_congr; intro x _; simp
  · intro x hx
    exfalso
    have : ∀ l : List Entry, List.dropWhile (fun e : Entry => decide ((none : Option Bytes) = none ∨ none = some e.path)) l = [] := by
      intro l
      induction l with
      | nil => rfl
      | cons a as ih => rw [List.dropWhile_cons_of_pos (by simp)]; exact ih
    rw [this] at hx; simp at hx

/-! ## The sides of a conflict -/

/-- the entry of a list with a key -/
def lookup (l : List Entry) (path : Bytes) (stage : Nat) : Option Entry := l.find? (fun e => decide (e.path = path ∧ e.stage = stage))

theorem lookup_emap {st : St} (hi : Inv st) (path : Bytes) (stage : Nat) : lookup st.entries path stage = st.emap path stage := by
  unfold lookup
  cases h : st.emap path stage with
  | none =>
    rw [List.find?_eq_none]
    intro x hx
    simpa using (emap_none hi).mp h x hx
  | some e =>
    obtain ⟨h1, h2⟩ := (hi.agree _ _ _).mp h
    cases hf : st.entries.find? (fun e => decide (e.path = path ∧ e.stage = stage)) with
    | none =>
      rw [List.find?_eq_none] at hf
      exact absurd h2 (by simpa using hf e h1)
    | some y =>
      have hy := List.find?_some hf
      have hym := List.mem_of_find?_eq_some hf
      simp only [decide_eq_true_eq] at hy
      rw [hi.unique hym h1 (hy.1.trans h2.1.symm) (hy.2.trans h2.2.symm)]

theorem sidesLoop_ok (path : Bytes) (suf : List Entry) : ∀ (s : Sides) (len : Nat), suf.Pairwise (fun a b => entryCmp a b < 0) →
    (∀ x ∈ suf, path ≤ x.path) →
    let r := sidesLoop suf (some path) s len
    r.1.ancestor = (lookup suf path 1).or s.ancestor ∧ r.1.ours = (lookup suf path 2).or s.ours ∧
    r.1.theirs = (lookup suf path 3).or s.theirs ∧
    (r.2 = len ↔ ∀ x ∈ suf, x.path = path → x.stage ≠ 1 ∧ x.stage ≠ 2 ∧ x.stage ≠ 3) ∧ len ≤ r.2 := by
  induction suf with
  | nil => intro s len _ _; simp [sidesLoop, lookup]
  | cons e es ih =>
    intro s len hs hle
    rw [List.pairwise_cons] at hs
    rw [sidesLoop]
    by_cases hp : e.path = path
    · rw [if_neg (by simp [hp])]
      simp only [hp]
      obtain ⟨h1, h2, h3, h4, h5⟩ := ih (s.set e) (if e.stage = 1 ∨ e.stage = 2 ∨ e.stage = 3 then len + 1 else len) hs.2
        (fun x hx => hle x (by simp [hx]))
      have hno : ∀ k, e.stage = k → lookup es path k = none := by
        intro k hk
        unfold lookup
        rw [List.find?_eq_none]
        intro x hx hxk
        simp only [decide_eq_true_eq] at hxk
        have := hs.1 x hx
        have h0 := entryCmp_zero (a := e) (b := x) |>.mpr ⟨hp.trans hxk.1.symm, hk.trans hxk.2.symm⟩
        omega
      have hcons : ∀ k, lookup (e :: es) path k = if e.stage = k then some e else lookup es path k := by
        intro k
        unfold lookup
        rw [List.find?_cons]
        by_cases hk : e.stage = k <;> simp [hp, hk]
      refine ⟨?_, ?_, ?_, ?_, ?_⟩
      · rw [h1, hcons]
        by_cases hk : e.stage = 1
        · rw [if_pos hk, hno 1 hk]; simp [Sides.set, hk]
        · rw [if_neg hk]; congr 1; unfold Sides.set; (repeat' split) <;> first | rfl | omega
      · rw [h2, hcons]
        by_cases hk : e.stage = 2
        · rw [if_pos hk, hno 2 hk]; simp [Sides.set, hk]
        · rw [if_neg hk]; congr 1; unfold Sides.set; (repeat' split) <;> first | rfl | omega
      · rw [h3, hcons]
        by_cases hk : e.stage = 3
        · rw [if_pos hk, hno 3 hk]; simp [Sides.set, hk]
        · rw [if_neg hk]; congr 1; unfold Sides.set; (repeat' split) <;> first | rfl | omega
      · by_cases hst : e.stage = 1 ∨ e.stage = 2 ∨ e.stage = 3
        · rw [if_pos hst] at h4 h5 ⊢
          constructor
          · intro h; omega
          · intro h
            have := h e (by simp) hp
            omega
        · rw [if_neg hst] at h4 h5 ⊢
          rw [h4]
          constructor
          · intro h x hx
            rcases List.mem_cons.mp hx with rfl | hx
            · intro _; omega
            · exact h x hx
          · intro h x hx; exact h x (by simp [hx])
      · revert h5; split <;> (intro h5; rw [hp] at *; omega)
    · have hlt : path < e.path := B.lt_of_le_of_ne (hle e (by simp)) (Ne.symm hp)
      have hall : ∀ x ∈ e :: es, x.path ≠ path := by
        intro x hx
        rcases List.mem_cons.mp hx with rfl | hx
        · exact hp
        · exact Ne.symm (B.ne_of_lt (B.lt_of_lt_of_le hlt (bcmp_le.mp (entryCmp_path (hs.1 x hx)))))
      have hl : ∀ k, lookup (e :: es) path k = none := by
        intro k; unfold lookup; rw [List.find?_eq_none]
        intro x hx; simp [hall x hx]
      rw [if_pos ⟨rfl, by simpa using Ne.symm hp⟩]
      simp only [hl, Option.none_or, true_and, Nat.le_refl, and_true]
      exact ⟨fun _ x hx h => absurd h (hall x hx), fun _ => trivial⟩

theorem lookup_append {a b : List Entry} {p : Bytes} {k : Nat} (h : ∀ x ∈ a, x.path ≠ p) : lookup (a ++ b) p k = lookup b p k := by
  unfold lookup
  rw [List.find?_append]
  have : a.find? (fun e => decide (e.path = p ∧ e.stage = k)) = none := by
    rw [List.find?_eq_none]; intro x hx; simp [h x hx]
  rw [this]; rfl

theorem conflictGet_ok {st : St} (hi : Inv st) (path : Bytes) :
    (conflictGet st path = .err ENOTFOUND ∧ st.emap path 1 = none ∧ st.emap path 2 = none ∧ st.emap path 3 = none) ∨
    (conflictGet st path = .ok ⟨st.emap path 1, st.emap path 2, st.emap path 3⟩ ∧
      ∃ s, 1 ≤ s ∧ s ≤ 3 ∧ st.emap path s ≠ none) := by
  unfold conflictGet
  rcases findPath_ok hi path with ⟨h1, h2⟩ | ⟨pos, h1, h2, ⟨e, he, hep⟩, h4, h5⟩
  · left; rw [h1]
    refine ⟨rfl, ?_, ?_, ?_⟩ <;> (rw [emap_none hi]; intro x hx h; exact h2 x hx h.1)
  · rw [h1]
    simp only
    have hlook : ∀ k, lookup (st.entries.drop pos) path k = st.emap path k := by
      intro k
      rw [← lookup_emap hi]
      conv => rhs; rw [← List.take_append_drop pos st.entries]
      exact (lookup_append (fun x hx => B.ne_of_lt (h4 x hx))).symm
    have hloop : sidesLoop (st.entries.drop pos) none ⟨none, none, none⟩ 0 = sidesLoop (st.entries.drop pos) (some path) ⟨none, none, none⟩ 0 := by
      have hlt := (List.getElem?_eq_some_iff.mp he).1
      have hd : st.entries.drop pos = e :: st.entries.drop (pos + 1) := by
        rw [List.drop_eq_getElem_cons hlt]; congr 1
        rw [List.getElem?_eq_getElem hlt] at he; exact Option.some.inj he
      rw [hd, sidesLoop, sidesLoop, if_neg (c := (none : Option Bytes).isSome = true ∧ _) (by simp),
        if_neg (c := (some path).isSome = true ∧ _) (by simp [hep])]
    rw [hloop]
    have hs : (st.entries.drop pos).Pairwise (fun a b => entryCmp a b < 0) := hi.sorted.sublist (List.drop_sublist _ _)
    obtain ⟨g1, g2, g3, g4, -⟩ := sidesLoop_ok path (st.entries.drop pos) ⟨none, none, none⟩ 0 hs h5
    cases hr : sidesLoop (st.entries.drop pos) (some path) ⟨none, none, none⟩ 0 with
    | mk s len =>
    rw [hr] at g1 g2 g3 g4
    simp only [hlook, Option.or_none] at g1 g2 g3 g4
    simp only
    have hmem : ∀ x ∈ st.entries, x.path = path → x ∈ st.entries.drop pos := by
      intro x hx hxp
      rw [← List.take_append_drop pos st.entries] at hx
      rcases List.mem_append.mp hx with hx | hx
      · exact absurd hxp (B.ne_of_lt (h4 x hx))
      · exact hx
    by_cases h0 : len = 0
    · rw [if_pos h0]
      have hn := g4.mp h0
      left
      refine ⟨rfl, ?_, ?_, ?_⟩ <;>
      · rw [emap_none hi]
        intro x hx h
        have := hn x (hmem x hx h.1) h.1
        omega
    · rw [if_neg h0]
      right
      refine ⟨by congr 1; cases s; simp_all, ?_⟩
      by_contra hcon
      apply h0
      rw [g4]
      intro x hx hxp
      have hxm := List.mem_of_mem_drop hx
      have : ¬ (1 ≤ x.stage ∧ x.stage ≤ 3) := by
        rintro ⟨a, b⟩
        exact hcon ⟨x.stage, a, b, by rw [(hi.agree _ _ x).mpr ⟨hxm, hxp, rfl⟩]; simp⟩
      omega

end Verif.Index
