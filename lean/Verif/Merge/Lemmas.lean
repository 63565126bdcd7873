import Mathlib.Data.List.Basic
import Verif.CmpPrefix
import Verif.Merge.Model
import Verif.Merge.Spec
import Verif.Index.Props
/-! # Walking several sorted lists together -/
namespace Verif.Merge
open Verif.Index Spec

def Flat (l : List Entry) : Prop := l.Pairwise (fun a b => a.path < b.path) ∧ ∀ e ∈ l, e.stage = 0

theorem flat_of_tree {l : List Entry} (h : IsTree l) : Flat l := ⟨h.sorted, fun e he => (h.entry e he).1⟩

theorem cmp0 {a b : Entry} (h : a.stage = b.stage) : entryCmp a b = bcmp a.path b.path := by
  unfold entryCmp
  simp only
  split
  · rename_i h0; rw [h0, h]; omega
  · rfl

/-- the head, if it has this path -/
def headAt (m : Bytes) (x : Option Entry) : Option Entry := x.filter (fun e => decide (e.path = m))

theorem headAt_self (e : Entry) : headAt e.path (some e) = some e := by simp [headAt, Option.filter]
theorem headAt_ne {e : Entry} {p : Bytes} (h : ¬ e.path = p) : headAt p (some e) = none := by simp [headAt, Option.filter, h]

/-- `cur_items` when `first_match` is known -/
def curOf (first : Option Entry) (pre : List (Option Entry)) : List (Option Entry) :=
  match first with
  | none => pre.map (fun _ => none)
  | some f => pre.map (headAt f.path)

theorem fold_pick (xs : List (Option Entry)) (hs : ∀ e, some e ∈ xs → e.stage = 0) : ∀ (pre : List (Option Entry)),
    (∀ e, some e ∈ pre → e.stage = 0) →
    ∀ (first : Option Entry),
    (first = none → ∀ x ∈ pre, x = none) →
    (∀ f, first = some f → some f ∈ pre ∧ ∀ e, some e ∈ pre → f.path ≤ e.path) →
    ∃ r, xs.foldl pickStep (first, curOf first pre) = r ∧
      (r.1 = none → (∀ x ∈ pre ++ xs, x = none) ∧ r.2 = (pre ++ xs).map (fun _ => none)) ∧
      (∀ f, r.1 = some f → some f ∈ pre ++ xs ∧ (∀ e, some e ∈ pre ++ xs → f.path ≤ e.path) ∧ r.2 = (pre ++ xs).map (headAt f.path)) := by
  induction xs with
  | nil =>
    intro pre _ first h1 h2
    refine ⟨_, rfl, ?_, ?_⟩
    · intro h
      simp only [List.foldl_nil] at h
      subst h
      simp only [List.append_nil]
      exact ⟨h1 rfl, rfl⟩
    · intro f h
      simp only [List.foldl_nil] at h
      subst h
      simp only [List.append_nil, List.foldl_nil]
      exact ⟨(h2 f rfl).1, (h2 f rfl).2, rfl⟩
  | cons x xs ih =>
    intro pre hp first h1 h2
    have hp' : ∀ e, some e ∈ pre ++ [x] → e.stage = 0 := by
      intro e he
      rcases List.mem_append.mp he with he | he
      · exact hp e he
      · rw [List.mem_singleton] at he
        exact hs e (by rw [he]; exact List.mem_cons_self)
    have hs' : ∀ e, some e ∈ xs → e.stage = 0 := fun e he => hs e (List.mem_cons_of_mem _ he)
    have key : ∀ first', (first' = none → ∀ y ∈ pre ++ [x], y = none) →
        (∀ f, first' = some f → some f ∈ pre ++ [x] ∧ ∀ e, some e ∈ pre ++ [x] → f.path ≤ e.path) →
        pickStep (first, curOf first pre) x =
          (first', curOf first' (pre ++ [x])) →
        ∃ r, (x :: xs).foldl pickStep (first, curOf first pre) = r ∧
      (r.1 = none → (∀ y ∈ pre ++ x :: xs, y = none) ∧ r.2 = (pre ++ x :: xs).map (fun _ => none)) ∧
      (∀ f, r.1 = some f → some f ∈ pre ++ x :: xs ∧ (∀ e, some e ∈ pre ++ x :: xs → f.path ≤ e.path) ∧ r.2 = (pre ++ x :: xs).map (headAt f.path)) := by
      intro first' g1 g2 g3
      obtain ⟨r, r1, r2⟩ := ih hs' (pre ++ [x]) hp' first' g1 g2
      refine ⟨r, ?_, ?_⟩
      · rw [List.foldl_cons, g3, r1]
      · rw [List.append_assoc] at r2
        exact r2
    cases x with
    | none =>
      refine key first ?_ ?_ ?_
      · intro h y hy
        rcases List.mem_append.mp hy with hy | hy
        · exact h1 h y hy
        · exact List.mem_singleton.mp hy
      · intro f h
        refine ⟨List.mem_append_left _ (h2 f h).1, ?_⟩
        intro e he
        rcases List.mem_append.mp he with he | he
        · exact (h2 f h).2 e he
        · cases List.mem_singleton.mp he
      · cases first <;> simp [pickStep, curOf, headAt]
    | some e =>
      have he0 : e.stage = 0 := hs e List.mem_cons_self
      cases first with
      | none =>
        have hn := h1 rfl
        refine key (some e) (fun h => (by cases h)) ?_ ?_
        · intro f h
          cases h
          refine ⟨by simp, ?_⟩
          intro e' he'
          rcases List.mem_append.mp he' with he' | he'
          · cases hn _ he'
          · cases List.mem_singleton.mp he'
            exact B.le_rfl
        · have hm : pre.map (fun _ => (none : Option Entry)) = pre.map (headAt e.path) := by
            apply List.map_congr_left
            intro y hy
            rw [hn y hy]; rfl
          simp only [pickStep, curOf]
          rw [hm]
          simp [headAt_self]
      | some first =>
        obtain ⟨hf1, hf2⟩ := h2 first rfl
        have hf0 : first.stage = 0 := hp first hf1
        have hc : entryCmp e first = bcmp e.path first.path := cmp0 (by rw [he0, hf0])
        by_cases hlt : entryCmp e first < 0
        · have hl : e.path < first.path := bcmp_lt.mp (by rw [← hc]; exact hlt)
          refine key (some e) (fun h => (by cases h)) ?_ ?_
          · intro f h
            cases h
            refine ⟨by simp, ?_⟩
            intro e' he'
            rcases List.mem_append.mp he' with he' | he'
            · exact B.le_trans (B.le_of_lt hl) (hf2 e' he')
            · cases List.mem_singleton.mp he'
              exact B.le_rfl
          · have hm : (pre.map (headAt first.path)).map (fun _ => (none : Option Entry)) = pre.map (headAt e.path) := by
              rw [List.map_map]
              apply List.map_congr_left
              intro y hy
              cases y with
              | none => rfl
              | some y =>
                have : ¬ y.path = e.path := by
                  intro h
                  have := hf2 y hy
                  rw [h] at this
                  exact B.lt_irrefl (B.lt_of_lt_of_le hl this)
                simp [headAt_ne this]
            simp only [pickStep, curOf, if_pos hlt]
            rw [hm]
            simp [headAt_self]
        · by_cases heq : entryCmp e first = 0
          · have hl : e.path = first.path := bcmp_zero.mp (by rw [← hc]; exact heq)
            refine key (some first) (fun h => (by cases h)) ?_ ?_
            · intro f h
              cases h
              refine ⟨List.mem_append_left _ hf1, ?_⟩
              intro e' he'
              rcases List.mem_append.mp he' with he' | he'
              · exact hf2 e' he'
              · cases List.mem_singleton.mp he'
                rw [hl]; exact B.le_rfl
            · simp only [pickStep, curOf, if_neg hlt, if_pos heq, List.map_append, List.map_cons, List.map_nil, headAt, Option.filter, hl, decide_true, if_true]
          · have hl : ¬ e.path = first.path := by
              intro h; apply heq; rw [hc]; exact bcmp_zero.mpr h
            refine key (some first) (fun h => (by cases h)) ?_ ?_
            · intro f h
              cases h
              refine ⟨List.mem_append_left _ hf1, ?_⟩
              intro e' he'
              rcases List.mem_append.mp he' with he' | he'
              · exact hf2 e' he'
              · cases List.mem_singleton.mp he'
                apply B.not_lt.mp
                intro h
                exact hlt (by rw [hc]; exact bcmp_lt.mpr h)
            · simp [pickStep, curOf, if_neg hlt, if_neg heq, headAt, Option.filter, hl]

/-- what `pick` finds: the items of the smallest next path -/
theorem pick_spec {iters : List (List Entry)} (hs : ∀ l ∈ iters, Flat l) :
    ((pick iters).1 = none → ∀ l ∈ iters, l = []) ∧
    (∀ f, (pick iters).1 = some f → (∃ l ∈ iters, l.head? = some f) ∧ (∀ l ∈ iters, ∀ e ∈ l, f.path ≤ e.path) ∧
      (pick iters).2 = iters.map (fun l => entryAt l f.path)) := by
  obtain ⟨r, r1, r2, r3⟩ := fold_pick (iters.map List.head?) (by
      intro e he
      obtain ⟨l, hl, hh⟩ := List.mem_map.mp he
      exact (hs l hl).2 e (List.mem_of_mem_head? (by rw [hh]; rfl))) [] (by simp) none (by simp) (by simp)
  simp only [List.map_nil, List.nil_append] at r1 r2 r3
  have : pick iters = r := by rw [← r1]; rfl
  rw [this]
  refine ⟨?_, ?_⟩
  · intro h l hl
    have := (r2 h).1 l.head? (List.mem_map_of_mem hl)
    exact List.head?_eq_none_iff.mp this
  · intro f h
    obtain ⟨g1, g2, g3⟩ := r3 f h
    have hle : ∀ l ∈ iters, ∀ e ∈ l, f.path ≤ e.path := by
      intro l hl e he
      cases l with
      | nil => cases he
      | cons x xs =>
        have hx := g2 x (List.mem_map.mpr ⟨_, hl, rfl⟩)
        rcases List.mem_cons.mp he with rfl | he
        · exact hx
        · exact B.le_trans hx (B.le_of_lt ((List.pairwise_cons.mp (hs _ hl).1).1 e he))
    refine ⟨?_, hle, ?_⟩
    · obtain ⟨l, hl, hh⟩ := List.mem_map.mp g1
      exact ⟨l, hl, hh⟩
    · rw [g3, List.map_map]
      apply List.map_congr_left
      intro l hl
      cases l with
      | nil => rfl
      | cons x xs =>
        simp only [Function.comp, List.head?_cons, headAt, Option.filter, entryAt, List.find?_cons]
        by_cases hx : x.path = f.path
        · simp [hx]
        · simp only [hx, decide_false]
          symm
          have : ∀ e ∈ xs, ¬ (e.path = f.path) := by
            intro e he hp
            have h1 := (List.pairwise_cons.mp (hs _ hl).1).1 e he
            have h2 := hle _ hl x List.mem_cons_self
            rw [hp] at h1
            exact B.lt_irrefl (B.lt_of_le_of_lt h2 h1)
          rw [if_neg (by simp)]
          rw [List.find?_eq_none]
          intro e he
          simpa using this e he

theorem flat_tail {l : List Entry} (h : Flat l) : Flat l.tail := by
  cases l with
  | nil => exact h
  | cons x xs => exact ⟨(List.pairwise_cons.mp h.1).2, fun e he => h.2 e (List.mem_cons_of_mem _ he)⟩

theorem entryAt_mem {l : List Entry} {p : Bytes} {e : Entry} (h : entryAt l p = some e) : e ∈ l ∧ e.path = p :=
  ⟨List.mem_of_find?_eq_some h, by simpa using List.find?_some h⟩

theorem entryAt_of_mem {l : List Entry} (hf : l.Pairwise (fun a b => a.path < b.path)) {e : Entry} (he : e ∈ l) : entryAt l e.path = some e := by
  induction l with
  | nil => cases he
  | cons x xs ih =>
    rw [entryAt, List.find?_cons]
    rcases List.mem_cons.mp he with rfl | he'
    · simp
    · have := (List.pairwise_cons.mp hf).1 e he'
      have hn : ¬ x.path = e.path := B.ne_of_lt this
      simp only [hn, decide_false]
      exact ih (List.pairwise_cons.mp hf).2 he'

theorem entryAt_none {l : List Entry} {p : Bytes} : entryAt l p = none ↔ ∀ e ∈ l, e.path ≠ p := by
  rw [entryAt, List.find?_eq_none]
  simp

theorem advance_eq {iters : List (List Entry)} {f : Bytes} (h : (∀ l ∈ iters, Flat l)) (hle : ∀ l ∈ iters, ∀ e ∈ l, f ≤ e.path) :
    advance iters (iters.map (fun l => entryAt l f)) = iters.map (fun l => l.filter (fun e => decide (e.path ≠ f))) := by
  induction iters with
  | nil => rfl
  | cons l ls ih =>
    have ih' := ih (fun l hl => h l (List.mem_cons_of_mem _ hl)) (fun l hl => hle l (List.mem_cons_of_mem _ hl))
    rw [advance] at ih'
    rw [advance, List.map_cons, List.zipWith_cons_cons, List.map_cons, ih']
    congr 1
    have hl := h l List.mem_cons_self
    have hll := hle l List.mem_cons_self
    cases l with
    | nil => simp [entryAt]
    | cons x xs =>
      have hgt : ∀ e ∈ xs, e.path ≠ f := by
        intro e he hp
        have h1 := (List.pairwise_cons.mp hl.1).1 e he
        have h2 := hll x List.mem_cons_self
        rw [hp] at h1
        exact B.lt_irrefl (B.lt_of_le_of_lt h2 h1)
      have hfil : xs.filter (fun e => decide (e.path ≠ f)) = xs := by
        rw [List.filter_eq_self]
        intro e he
        simpa using hgt e he
      by_cases hx : x.path = f
      · have : entryAt (x :: xs) f = some x := by simp [entryAt, hx]
        rw [this]
        simp only [Option.isSome_some, if_true, List.tail_cons]
        rw [List.filter_cons_of_neg (by simp [hx]), hfil]
      · have : entryAt (x :: xs) f = none := by
          rw [entryAt_none]
          intro e he
          rcases List.mem_cons.mp he with rfl | he
          · exact hx
          · exact hgt e he
        rw [this]
        simp only [Option.isSome_none, Bool.false_eq_true, if_false]
        rw [List.filter_cons_of_pos (by simpa using hx), hfil]

theorem entryAt_filter {l : List Entry} {p f : Bytes} (h : p ≠ f) : entryAt (l.filter (fun e => decide (e.path ≠ f))) p = entryAt l p := by
  rw [entryAt, entryAt, List.find?_filter]
  apply congrArg (fun q => List.find? q l)
  funext e
  by_cases hp : e.path = p
  · simp [hp, h]
  · simp [hp]

theorem sum_filter_lt {iters : List (List Entry)} {f : Bytes} (h : ∃ l ∈ iters, ∃ e ∈ l, e.path = f) :
    ((iters.map (fun l => l.filter (fun e => decide (e.path ≠ f)))).map List.length).sum < (iters.map List.length).sum := by
  have hle : ∀ ls : List (List Entry), ((ls.map (fun l => l.filter (fun e => decide (e.path ≠ f)))).map List.length).sum ≤ (ls.map List.length).sum := by
    intro ls
    induction ls with
    | nil => simp
    | cons l ls ih =>
      simp only [List.map_cons, List.sum_cons]
      have := List.length_filter_le (fun e => decide (e.path ≠ f)) l
      omega
  induction iters with
  | nil => obtain ⟨l, hl, -⟩ := h; cases hl
  | cons l ls ih =>
    simp only [List.map_cons, List.sum_cons]
    have h1 := List.length_filter_le (fun e => decide (e.path ≠ f)) l
    have h2 := hle ls
    obtain ⟨l', hl', e, he, hp⟩ := h
    rcases List.mem_cons.mp hl' with rfl | hl'
    · have : (l'.filter (fun e => decide (e.path ≠ f))).length < l'.length := by
        apply List.length_filter_lt_length_iff_exists.mpr
        exact ⟨e, he, by simpa using hp⟩
      omega
    · have := ih ⟨l', hl', e, he, hp⟩
      omega

theorem walkLoop_ok (fuel : Nat) : ∀ iters : List (List Entry), (∀ l ∈ iters, Flat l) → (iters.map List.length).sum < fuel →
    ∃ ps : List Bytes, ps.Pairwise (fun a b => a < b) ∧ (∀ p, p ∈ ps ↔ ∃ l ∈ iters, ∃ e ∈ l, e.path = p) ∧
      walkLoop fuel iters = ps.map (fun p => iters.map (fun l => entryAt l p)) := by
  induction fuel with
  | zero => intro iters _ h; omega
  | succ fuel ih =>
    intro iters hs hfuel
    obtain ⟨k1, k2⟩ := pick_spec hs
    rw [walkLoop]
    cases hp : (pick iters).1 with
    | none =>
      refine ⟨[], List.Pairwise.nil, ?_, ?_⟩
      · intro p
        simp only [List.not_mem_nil, false_iff]
        rintro ⟨l, hl, e, he, -⟩
        rw [k1 hp l hl] at he
        cases he
      · simp only [hp, List.map_nil]
    | some f =>
      obtain ⟨⟨l0, hl0, hh0⟩, hle, hcur⟩ := k2 f hp
      have hf0 : f ∈ l0 := List.mem_of_mem_head? (by rw [hh0]; rfl)
      simp only [hp]
      rw [hcur, advance_eq hs hle]
      set iters' := iters.map (fun l => l.filter (fun e => decide (e.path ≠ f.path))) with hit
      obtain ⟨ps, p1, p2, p3⟩ := ih iters' (by
          intro l hl
          obtain ⟨l', hl', rfl⟩ := List.mem_map.mp hl
          exact ⟨(hs l' hl').1.filter _, fun e he => (hs l' hl').2 e (List.mem_filter.mp he).1⟩) (by
          have := sum_filter_lt (iters := iters) (f := f.path) ⟨l0, hl0, f, hf0, rfl⟩
          rw [hit]; omega)
      have hmem : ∀ p, p ∈ ps ↔ p ≠ f.path ∧ ∃ l ∈ iters, ∃ e ∈ l, e.path = p := by
        intro p
        rw [p2]
        constructor
        · rintro ⟨l, hl, e, he, rfl⟩
          obtain ⟨l', hl', rfl⟩ := List.mem_map.mp hl
          have := List.mem_filter.mp he
          exact ⟨by simpa using this.2, l', hl', e, this.1, rfl⟩
        · rintro ⟨hne, l, hl, e, he, rfl⟩
          exact ⟨_, List.mem_map_of_mem hl, e, List.mem_filter.mpr ⟨he, by simpa using hne⟩, rfl⟩
      refine ⟨f.path :: ps, ?_, ?_, ?_⟩
      · rw [List.pairwise_cons]
        refine ⟨?_, p1⟩
        intro p hpm
        obtain ⟨hne, l, hl, e, he, rfl⟩ := (hmem p).mp hpm
        exact B.lt_of_le_of_ne (hle l hl e he) (Ne.symm hne)
      · intro p
        rw [List.mem_cons, hmem]
        constructor
        · rintro (rfl | ⟨-, h⟩)
          · exact ⟨l0, hl0, f, hf0, rfl⟩
          · exact h
        · intro h
          by_cases hpf : p = f.path
          · exact .inl hpf
          · exact .inr ⟨hpf, h⟩
      · rw [p3, List.map_cons]
        congr 1
        apply List.map_congr_left
        intro p hpm
        rw [hit, List.map_map]
        apply List.map_congr_left
        intro l hl
        exact entryAt_filter ((hmem p).mp hpm).1

theorem walk_ok (iters : List (List Entry)) (hs : ∀ l ∈ iters, Flat l) :
    ∃ ps : List Bytes, ps.Pairwise (fun a b => a < b) ∧ (∀ p, p ∈ ps ↔ ∃ l ∈ iters, ∃ e ∈ l, e.path = p) ∧
      walk iters = ps.map (fun p => iters.map (fun l => entryAt l p)) := walkLoop_ok _ iters hs (by omega)

end Verif.Merge
