import Verif.ConfigLevels.Model
import Verif.Vec.Props
/-! # Lemmas about configurations -/
namespace Verif.ConfigLevels
open ConfigFile (Entry readEntries listGet normalizeName)

theorem bsearchLoop_total (key : BEntry → Int) (a : List BEntry) : ∀ (fuel base lim : Nat) (c : Int), lim < fuel → base + lim ≤ a.length →
    ∃ c' pos, Sort.bsearchLoop key a fuel base lim c = .ok (c', pos) ∧ pos ≤ a.length := by
  intro fuel
  induction fuel with
  | zero => intro base lim c h; omega
  | succ fuel ih =>
    intro base lim c hf hb
    unfold Sort.bsearchLoop
    by_cases h0 : lim ≠ 0
    · rw [if_pos h0]
      have hlt : base + lim / 2 < a.length := by omega
      have hrd : Sort.rd a (base + lim / 2) = .ok a[base + lim / 2] := by unfold Sort.rd; rw [List.getElem?_eq_getElem hlt]
      rw [hrd]
      simp only
      by_cases h1 : key a[base + lim / 2] = 0
      · rw [if_pos h1]; exact ⟨_, _, rfl, by omega⟩
      · rw [if_neg h1]
        by_cases h2 : 0 < key a[base + lim / 2]
        · rw [if_pos h2]; exact ih _ _ _ (by omega) (by omega)
        · rw [if_neg h2]; exact ih _ _ _ (by omega) (by omega)
    · rw [if_neg h0]; exact ⟨_, _, rfl, by omega⟩

theorem bsearch_total (key : BEntry → Int) (a : List BEntry) : ∃ found pos, Sort.bsearch key a = .ok (found, pos) ∧ pos ≤ a.length := by
  obtain ⟨c, pos, h, h2⟩ := bsearchLoop_total key a (a.length + 1) 0 a.length (-1) (by omega) (by omega)
  exact ⟨_, _, by unfold Sort.bsearch; rw [h], h2⟩

theorem readerCmp_preorder : Sort.Spec.TotalPreorder readerCmp := by
  constructor <;> intros <;> simp only [readerCmp] at * <;> omega

/-- strictly decreasing levels -/
def Desc (l : List BEntry) : Prop := l.Pairwise fun a b => b.level < a.level

/-- what holds of all configurations -/
structure Good (c : Config) : Prop where
  desc : Desc c.readers.items
  same : c.writers.items.Perm c.readers.items
  rs : c.readers.sorted = true
  ws : c.writers.sorted = true

theorem Desc.sorted {l : List BEntry} (h : Desc l) : Sort.Spec.Sorted readerCmp l := by
  unfold Sort.Spec.Sorted
  refine h.imp ?_
  intro a b hab; simp only [readerCmp]; omega

theorem Desc.eq_of_level {l : List BEntry} (h : Desc l) {a b : BEntry} (ha : a ∈ l) (hb : b ∈ l) (hl : a.level = b.level) : a = b := by
  induction h with
  | nil => cases ha
  | cons hx _ ih =>
    rcases List.mem_cons.1 ha with rfl | ha' <;> rcases List.mem_cons.1 hb with rfl | hb'
    · rfl
    · have := hx _ hb'; omega
    · have := hx _ ha'; omega
    · exact ih ha' hb'

theorem reader_insert {v : EVec} (hd : Desc v.items) (hs : v.sorted = true) (x : BEntry) :
    ((∃ y ∈ v.items, y.level = x.level) → insertSorted readerCmp v x true = .err EEXISTS) ∧
    ((∀ y ∈ v.items, y.level ≠ x.level) → ∃ l m, v.items = l ++ m ∧ insertSorted readerCmp v x true = .ok ⟨l ++ x :: m, true⟩ ∧ Desc (l ++ x :: m)) := by
  obtain ⟨found, pos, h1, h2, h3, h4, _⟩ := Vec.bsearch_sorted readerCmp_preorder hd.sorted x
  have hins : insertSorted readerCmp v x true = if found then .err EEXISTS else .ok ⟨v.items.take pos ++ x :: v.items.drop pos, v.sorted⟩ := by
    unfold insertSorted vecSort
    rw [if_pos hs]
    simp only [Res.bind_ok, h1, Bool.and_true]
  constructor
  · rintro ⟨y, hy, hl⟩
    have : found = true := h4.2 ⟨y, hy, by simp only [readerCmp]; omega⟩
    rw [hins, if_pos this]
  · intro hn
    have : found = false := by
      cases hf : found with
      | false => rfl
      | true =>
        obtain ⟨y, hy, hc⟩ := h4.1 hf
        exact absurd (by simp only [readerCmp] at hc; omega) (hn y hy)
    refine ⟨v.items.take pos, v.items.drop pos, (List.take_append_drop _ _).symm, by rw [hins, this, hs]; rfl, ?_⟩
    unfold Sort.Spec.Sorted at h3
    have hd' : Desc (v.items.take pos ++ v.items.drop pos) := by rw [List.take_append_drop]; exact hd
    unfold Desc at hd' ⊢
    rw [List.pairwise_append] at hd' h3 ⊢
    refine ⟨hd'.1, List.pairwise_cons.2 ⟨?_, hd'.2.1⟩, ?_⟩
    · intro b hb
      have := (List.pairwise_cons.1 h3.2.1).1 b hb
      have := hn b (List.mem_of_mem_drop hb)
      simp only [readerCmp] at *; omega
    · intro a ha b hb
      rcases List.mem_cons.1 hb with rfl | hb
      · have := h3.2.2 a ha b (by simp)
        have := hn a (List.mem_of_mem_take ha)
        simp only [readerCmp] at *; omega
      · exact hd'.2.2 a ha b hb

theorem writer_insert {v : EVec} (hs : v.sorted = true) (x : BEntry) :
    ∃ l m, v.items = l ++ m ∧ insertSorted writerCmp v x false = .ok ⟨l ++ x :: m, true⟩ := by
  obtain ⟨found, pos, h1, h2⟩ := bsearch_total (writerCmp x) v.items
  refine ⟨v.items.take pos, v.items.drop pos, (List.take_append_drop _ _).symm, ?_⟩
  unfold insertSorted vecSort
  rw [if_pos hs]
  simp only [Res.bind_ok, h1, Bool.and_false, Bool.false_eq_true, if_false, hs]

theorem removeLevel_filter (level : Int) : ∀ (l : List BEntry), l.Pairwise (fun a b => a.level ≠ b.level) →
    removeLevel level l = l.filter fun e => e.level ≠ level
  | [], _ => rfl
  | e :: es, h => by
    have h' := List.pairwise_cons.1 h
    unfold removeLevel
    by_cases he : e.level = level
    · rw [if_pos he, List.filter_cons_of_neg (by simpa using he)]
      symm
      rw [List.filter_eq_self]
      intro a ha
      have := h'.1 a ha
      simp only [ne_eq, decide_not, Bool.not_eq_true', decide_eq_false_iff_not]
      omega
    · rw [if_neg he, List.filter_cons_of_pos (by simpa using he), removeLevel_filter level es h'.2]

theorem Desc.ne {l : List BEntry} (h : Desc l) : l.Pairwise (fun a b => a.level ≠ b.level) := h.imp (by intro a b h; omega)

theorem Good.ne_w {c : Config} (h : Good c) : c.writers.items.Pairwise (fun a b => a.level ≠ b.level) :=
  (h.same.pairwise_iff (fun h => Ne.symm h)).2 h.desc.ne

theorem good_new : Good new := ⟨List.Pairwise.nil, List.Perm.refl _, rfl, rfl⟩

theorem tryRemove_eq {c : Config} (h : Good c) (level : Int) :
    tryRemove c level = ⟨⟨c.readers.items.filter (fun e => e.level ≠ level), true⟩, ⟨c.writers.items.filter (fun e => e.level ≠ level), true⟩⟩ := by
  unfold tryRemove
  by_cases ha : c.readers.items.any (fun e => decide (e.level = level))
  · rw [if_pos ha, removeLevel_filter level _ h.desc.ne, removeLevel_filter level _ h.ne_w, h.rs, h.ws]
  · rw [if_neg ha]
    have hr : ∀ e ∈ c.readers.items, e.level ≠ level := by
      intro e he hl; apply ha; rw [List.any_eq_true]; exact ⟨e, he, by simpa using hl⟩
    have h1 : c.readers.items.filter (fun e => decide (e.level ≠ level)) = c.readers.items := by
      rw [List.filter_eq_self]; intro e he; simpa using hr e he
    have h2 : c.writers.items.filter (fun e => decide (e.level ≠ level)) = c.writers.items := by
      rw [List.filter_eq_self]; intro e he; simpa using hr e (h.same.mem_iff.1 he)
    rw [h1, h2]
    obtain ⟨⟨ri, rs⟩, ⟨wi, ws⟩⟩ := c
    have e1 := h.rs; have e2 := h.ws
    simp only at e1 e2 ⊢
    rw [e1, e2]

theorem good_remove {c : Config} (h : Good c) (level : Int) : Good (tryRemove c level) := by
  rw [tryRemove_eq h]
  exact ⟨h.desc.sublist List.filter_sublist, h.same.filter _, rfl, rfl⟩

theorem good_insert {c : Config} (h : Good c) (inst : Nat) (level : Int) (hn : ∀ y ∈ c.readers.items, y.level ≠ level) :
    ∃ l m wl wm, c.readers.items = l ++ m ∧ c.writers.items = wl ++ wm ∧
      addInstance c inst level false = .ok ⟨⟨l ++ ⟨inst, level, level⟩ :: m, true⟩, ⟨wl ++ ⟨inst, level, level⟩ :: wm, true⟩⟩ ∧
      Good ⟨⟨l ++ ⟨inst, level, level⟩ :: m, true⟩, ⟨wl ++ ⟨inst, level, level⟩ :: wm, true⟩⟩ := by
  obtain ⟨l, m, h1, h2, h3⟩ := (reader_insert h.desc h.rs ⟨inst, level, level⟩).2 hn
  obtain ⟨wl, wm, h4, h5⟩ := writer_insert h.ws ⟨inst, level, level⟩
  refine ⟨l, m, wl, wm, h1, h4, ?_, h3, ?_, rfl, rfl⟩
  · unfold addInstance
    simp only [Bool.false_eq_true, if_false, h2, h5, Res.bind_ok]
  · have hp : (wl ++ wm).Perm (l ++ m) := h1 ▸ h4 ▸ h.same
    exact List.perm_middle.trans ((hp.cons _).trans List.perm_middle.symm)

theorem addInstance_force (c : Config) (inst : Nat) (level : Int) : addInstance c inst level true = addInstance (tryRemove c level) inst level false := rfl

theorem addInstance_dup {c : Config} (h : Good c) (inst : Nat) (level : Int) (hn : ∃ y ∈ c.readers.items, y.level = level) :
    addInstance c inst level false = .err EEXISTS := by
  have := (reader_insert h.desc h.rs ⟨inst, level, level⟩).1 hn
  unfold addInstance
  simp only [Bool.false_eq_true, if_false, this]
  rfl

theorem tryRemove_none {c : Config} (h : Good c) (level : Int) : ∀ y ∈ (tryRemove c level).readers.items, y.level ≠ level := by
  rw [tryRemove_eq h]; intro y hy; simpa using (List.mem_filter.1 hy).2

theorem good_add {c c' : Config} (h : Good c) {inst : Nat} {level : Int} {force : Bool} (ha : addInstance c inst level force = .ok c') : Good c' := by
  cases force with
  | true =>
    rw [addInstance_force] at ha
    obtain ⟨_, _, _, _, _, _, h1, h2⟩ := good_insert (good_remove h level) inst level (tryRemove_none h level)
    rw [h1] at ha
    exact Res.ok.inj ha ▸ h2
  | false =>
    by_cases hd : ∃ y ∈ c.readers.items, y.level = level
    · rw [addInstance_dup h inst level hd] at ha; cases ha
    · obtain ⟨_, _, _, _, _, _, h1, h2⟩ := good_insert h inst level (fun y hy hl => hd ⟨y, hy, hl⟩)
      rw [h1] at ha
      exact Res.ok.inj ha ▸ h2

theorem setWriteorder_eq {c : Config} (h : Good c) (levels : List Int) :
    setWriteorder c levels = .ok ⟨⟨c.readers.items.map fun e => { e with writeOrder := orderOf levels e.level }, true⟩,
      ⟨c.writers.items.map fun e => { e with writeOrder := orderOf levels e.level }, true⟩⟩ := by
  unfold setWriteorder vecSort
  simp only [h.ws, if_true, Res.bind_ok, h.rs]

theorem good_order {c c' : Config} (h : Good c) {levels : List Int} (ha : setWriteorder c levels = .ok c') : Good c' := by
  rw [setWriteorder_eq h] at ha
  rw [← Res.ok.inj ha]
  refine ⟨?_, h.same.map _, rfl, rfl⟩
  unfold Desc
  rw [List.pairwise_map]
  exact h.desc

theorem add_new (inst : Nat) (level : Int) : addInstance new inst level true = .ok ⟨⟨[⟨inst, level, level⟩], true⟩, ⟨[⟨inst, level, level⟩], true⟩⟩ := by
  rfl

end Verif.ConfigLevels
