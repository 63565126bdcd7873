import Verif.Xdiff.Lemmas4
import Verif.Xdiff.Spec
/-! # What is marked leaves the same lines in both files -/
namespace Verif.Xdiff
open Spec

theorem range_getD {n i : Nat} (h : i < n) : (List.range n).getD i 0 = i := by
  rw [List.getD_eq_getElem?_getD, List.getElem?_range h]; rfl

theorem kept_eq : ∀ (l : List Nat) (r : List Bool), l.length = r.length → kept l r = ((List.range l.length).filter fun i => !r.getD i false).map fun i => l.getD i 0 := by
  intro l
  induction l with
  | nil =>
    intro r h
    have : r = [] := List.length_eq_zero_iff.mp (by simpa using h.symm)
    subst this
    rfl
  | cons a l ih =>
    intro r h
    cases r with
    | nil => simp at h
    | cons m r =>
      have h : l.length = r.length := by simpa using h
      have tl : ((List.range l.length).map Nat.succ |>.filter fun i => !(m :: r).getD i false).map (fun i => (a :: l).getD i 0) = kept l r := by
        rw [List.filter_map, List.map_map, ih r h]
        rfl
      rw [List.length_cons, List.range_succ_eq_map, List.filter_cons]
      cases m with
      | true =>
        rw [kept, if_pos rfl, ← tl]
        rfl
      | false =>
        rw [kept, if_neg (by simp), ← tl]
        rfl

theorem kept_K {l : List Nat} {r : List Bool} (h : l.length = r.length) : kept l r = K l (List.range l.length) r 0 l.length := by
  rw [kept_eq l r h]
  unfold K
  rw [Nat.sub_zero, ← List.range_eq_range']
  congr 1
  apply List.filter_congr
  intro i hi
  rw [List.mem_range] at hi
  rw [range_getD hi]

theorem kept_map {α β : Type} (f : α → β) : ∀ (l : List α) (r : List Bool), kept (l.map f) r = (kept l r).map f := by
  intro l
  induction l with
  | nil => intro r; cases r <;> rfl
  | cons a l ih =>
    intro r
    cases r with
    | nil => rfl
    | cons m r =>
      cases m with
      | true => simp only [List.map_cons, kept, if_true]; exact ih r
      | false => simp only [List.map_cons, kept, Bool.false_eq_true, if_false]; rw [ih r]

/-! ## Classes -/

/-- the line of a class -/
def lineOf (cf : List Cls) (i : Nat) : Bytes := ((cf.find? fun c => c.idx == i).map Cls.line).getD []

/-- the classes are numbered, and each has its own line -/
structure CfInv (cf : List Cls) : Prop where
  lt : ∀ c ∈ cf, c.idx < cf.length
  inj : ∀ c ∈ cf, ∀ d ∈ cf, c.idx = d.idx → c.line = d.line
  all : ∀ i, i < cf.length → ∃ c ∈ cf, c.idx = i
  hash : ∀ c ∈ cf, c.ha = hashRecord c.line
  one : ∀ c ∈ cf, ∀ d ∈ cf, c.line = d.line → c.idx = d.idx

theorem count_idx (f : Bool) (c : Cls) : (c.count f).idx = c.idx ∧ (c.count f).line = c.line ∧ (c.count f).ha = c.ha := by
  unfold Cls.count; split <;> exact ⟨rfl, rfl, rfl⟩

theorem lineOf_mem {cf : List Cls} (h : CfInv cf) {c : Cls} (hc : c ∈ cf) : lineOf cf c.idx = c.line := by
  unfold lineOf
  cases hf : cf.find? fun d => d.idx == c.idx with
  | none =>
    have := List.find?_eq_none.mp hf c hc
    simp at this
  | some d =>
    have h1 := List.mem_of_find?_eq_some hf
    have h2 := List.find?_some hf
    exact h.inj d h1 c hc (by simpa using h2)

theorem classify_eq (first : Bool) {cf : List Cls} (h : CfInv cf) (l : Bytes) :
    CfInv (classify first cf l).1 ∧ cf.length ≤ (classify first cf l).1.length ∧ (∀ i, i < cf.length → lineOf (classify first cf l).1 i = lineOf cf i) ∧
    (classify first cf l).2 < (classify first cf l).1.length ∧ lineOf (classify first cf l).1 (classify first cf l).2 = l := by
  unfold classify
  cases hf : cf.find? fun c => c.ha == hashRecord l && c.line == l with
  | some c =>
    dsimp only
    have hc := List.mem_of_find?_eq_some hf
    have hc2 := List.find?_some hf
    have hl : c.line = l := by
      simp only [Bool.and_eq_true, beq_iff_eq] at hc2
      exact hc2.2
    let g : Cls → Cls := fun d => if d.idx = c.idx then d.count first else d
    have hg : ∀ d, (g d).idx = d.idx ∧ (g d).line = d.line ∧ (g d).ha = d.ha := by
      intro d
      show (if d.idx = c.idx then d.count first else d).idx = _ ∧ (if d.idx = c.idx then d.count first else d).line = _ ∧ (if d.idx = c.idx then d.count first else d).ha = _
      split
      · exact count_idx first d
      · exact ⟨rfl, rfl, rfl⟩
    have hi : CfInv (cf.map g) := by
      refine ⟨?_, ?_, ?_, ?_, ?_⟩
      · intro d hd
        obtain ⟨d, hd', rfl⟩ := List.mem_map.mp hd
        rw [(hg d).1, List.length_map]; exact h.lt d hd'
      · intro d hd e he heq
        obtain ⟨d, hd', rfl⟩ := List.mem_map.mp hd
        obtain ⟨e, he', rfl⟩ := List.mem_map.mp he
        rw [(hg d).1, (hg e).1] at heq
        rw [(hg d).2.1, (hg e).2.1]
        exact h.inj d hd' e he' heq
      · intro i hi
        obtain ⟨d, hd, e⟩ := h.all i (by simpa using hi)
        exact ⟨g d, List.mem_map_of_mem hd, by rw [(hg d).1]; exact e⟩
      · intro d hd
        obtain ⟨d, hd', rfl⟩ := List.mem_map.mp hd
        rw [(hg d).2.1, (hg d).2.2]; exact h.hash d hd'
      · intro d hd e he heq
        obtain ⟨d, hd', rfl⟩ := List.mem_map.mp hd
        obtain ⟨e, he', rfl⟩ := List.mem_map.mp he
        rw [(hg d).2.1, (hg e).2.1] at heq
        rw [(hg d).1, (hg e).1]
        exact h.one d hd' e he' heq
    have hlo : ∀ d ∈ cf, lineOf (cf.map g) d.idx = d.line := by
      intro d hd
      rw [← (hg d).1, lineOf_mem hi (List.mem_map_of_mem hd), (hg d).2.1]
    refine ⟨hi, by rw [List.length_map], ?_, ?_, ?_⟩
    · intro i hi'
      obtain ⟨d, hd, rfl⟩ := h.all i hi'
      rw [lineOf_mem h hd]
      exact hlo d hd
    · rw [List.length_map]; exact h.lt c hc
    · exact (hlo c hc).trans hl
  | none =>
    dsimp only
    let n : Cls := ({ ha := hashRecord l, line := l, idx := cf.length, len1 := 0, len2 := 0 } : Cls).count first
    have hn : n.idx = cf.length ∧ n.line = l ∧ n.ha = hashRecord l := count_idx first _
    have hno := List.find?_eq_none.mp hf
    have hnl : ∀ c ∈ cf, c.line ≠ l := by
      intro c hc heq
      apply hno c hc
      rw [h.hash c hc, heq]
      simp
    have hi : CfInv (n :: cf) := by
      refine ⟨?_, ?_, ?_, ?_, ?_⟩
      · intro d hd
        rw [List.length_cons]
        rcases List.mem_cons.mp hd with rfl | hd
        · rw [hn.1]; omega
        · have := h.lt d hd; omega
      · intro d hd e he heq
        rcases List.mem_cons.mp hd with rfl | hd <;> rcases List.mem_cons.mp he with rfl | he
        · rfl
        · have := h.lt e he; omega
        · have := h.lt d hd; omega
        · exact h.inj d hd e he heq
      · intro i hi'
        rw [List.length_cons] at hi'
        by_cases e : i = cf.length
        · exact ⟨n, by simp, by rw [e]; exact hn.1⟩
        · obtain ⟨d, hd, e⟩ := h.all i (by omega)
          exact ⟨d, List.mem_cons_of_mem _ hd, e⟩
      · intro d hd
        rcases List.mem_cons.mp hd with rfl | hd
        · rw [hn.2.1, hn.2.2]
        · exact h.hash d hd
      · intro d hd e he heq
        rcases List.mem_cons.mp hd with rfl | hd <;> rcases List.mem_cons.mp he with rfl | he
        · rfl
        · rw [hn.2.1] at heq; exact absurd heq.symm (hnl e he)
        · rw [hn.2.1] at heq; exact absurd heq (hnl d hd)
        · exact h.one d hd e he heq
    refine ⟨hi, by rw [List.length_cons]; omega, ?_, by rw [List.length_cons]; omega, ?_⟩
    · intro i hi'
      obtain ⟨d, hd, rfl⟩ := h.all i hi'
      rw [lineOf_mem h hd]
      exact lineOf_mem hi (List.mem_cons_of_mem _ hd)
    · have := lineOf_mem hi (c := n) (by simp)
      rw [hn.1, hn.2.1] at this
      exact this

theorem prepareCtx_eq (first : Bool) : ∀ (ls : List Bytes) (cf : List Cls), CfInv cf →
    CfInv (prepareCtx first cf ls).1 ∧ cf.length ≤ (prepareCtx first cf ls).1.length ∧ (∀ i, i < cf.length → lineOf (prepareCtx first cf ls).1 i = lineOf cf i) ∧
    (∀ i ∈ (prepareCtx first cf ls).2, i < (prepareCtx first cf ls).1.length) ∧ (prepareCtx first cf ls).2.map (lineOf (prepareCtx first cf ls).1) = ls := by
  intro ls
  induction ls with
  | nil => intro cf h; exact ⟨h, Nat.le_refl _, fun _ _ => rfl, by simp [prepareCtx], rfl⟩
  | cons l ls ih =>
    intro cf h
    obtain ⟨c1, c2, c3, c4, c5⟩ := classify_eq first h l
    obtain ⟨d1, d2, d3, d4, d5⟩ := ih _ c1
    rw [prepareCtx]
    refine ⟨d1, by dsimp only; omega, ?_, ?_, ?_⟩
    · intro i hi
      dsimp only
      rw [d3 i (by omega), c3 i hi]
    · intro i hi
      rcases List.mem_cons.mp hi with rfl | hi
      · dsimp only; omega
      · exact d4 i hi
    · dsimp only
      rw [List.map_cons, d5, d3 _ c4, c5]

/-- equal classes are equal lines -/
theorem lineOf_inj {cf : List Cls} (h : CfInv cf) {i j : Nat} (hi : i < cf.length) (hj : j < cf.length) (he : lineOf cf i = lineOf cf j) : i = j := by
  obtain ⟨c, hc, rfl⟩ := h.all i hi
  obtain ⟨d, hd, rfl⟩ := h.all j hj
  rw [lineOf_mem h hc, lineOf_mem h hd] at he
  exact h.one c hc d hd he

theorem cfInv_nil : CfInv [] := ⟨by simp, by simp, by simp, by simp, by simp⟩

/-! ## Trimming -/

theorem commonPrefix_eq : ∀ a b : List Nat, commonPrefix a b ≤ a.length ∧ commonPrefix a b ≤ b.length ∧ ∀ i, i < commonPrefix a b → a.getD i 0 = b.getD i 0 := by
  intro a
  induction a with
  | nil => intro b; exact ⟨by simp [commonPrefix], by simp [commonPrefix], by intro i hi; simp [commonPrefix] at hi⟩
  | cons x a ih =>
    intro b
    cases b with
    | nil => exact ⟨by simp [commonPrefix], by simp [commonPrefix], by intro i hi; simp [commonPrefix] at hi⟩
    | cons y b =>
      rw [commonPrefix]
      by_cases h : x ≠ y
      · rw [if_pos h]; exact ⟨by omega, by omega, by intro i hi; omega⟩
      · rw [if_neg h]
        obtain ⟨h1, h2, h3⟩ := ih b
        refine ⟨by rw [List.length_cons]; omega, by rw [List.length_cons]; omega, ?_⟩
        intro i hi
        cases i with
        | zero => simpa using h
        | succ i => exact h3 i (by omega)

theorem commonPrefix_max : ∀ {a b : List Nat} {n : Nat}, n ≤ a.length → n ≤ b.length → (∀ i, i < n → a.getD i 0 = b.getD i 0) → n ≤ commonPrefix a b := by
  intro a
  induction a with
  | nil => intro b n h _ _; simp at h; omega
  | cons x a ih =>
    intro b n h1 h2 h
    cases b with
    | nil => simp at h2; omega
    | cons y b =>
      cases n with
      | zero => omega
      | succ n =>
        have h0 : x = y := h 0 (by omega)
        rw [commonPrefix, if_neg (by simp [h0])]
        have := ih (b := b) (n := n) (by simpa using h1) (by simpa using h2) (fun i hi => h (i + 1) (by omega))
        omega

theorem K_full {h x : List Nat} {r : List Bool} {a m : Nat} (hu : ∀ j, a ≤ j → j < m → r.getD (x.getD j 0) false = false) : (K h x r a m).length = m - a := by
  unfold K
  rw [List.length_map, List.filter_eq_self.mpr, List.length_range']
  intro j hj
  rw [List.mem_range'_1] at hj
  rw [hu j hj.1 (by omega)]; rfl

theorem commonPrefix_self (a : List Nat) : commonPrefix a a = a.length := by
  induction a with
  | nil => rfl
  | cons x a ih => rw [commonPrefix, if_neg (by simp), ih, List.length_cons]

theorem reverse_getD {l : List Nat} {i : Nat} (h : i < l.length) : l.reverse.getD i 0 = l.getD (l.length - 1 - i) 0 := by
  rw [List.getD_eq_getElem?_getD, List.getD_eq_getElem?_getD, List.getElem?_reverse h]

theorem trimEnds_eq (a b : List Nat) : (trimEnds a b).1 + (trimEnds a b).2 ≤ a.length ∧ (trimEnds a b).1 + (trimEnds a b).2 ≤ b.length ∧
    (∀ i, i < (trimEnds a b).1 → a.getD i 0 = b.getD i 0) ∧
    (∀ i, i < (trimEnds a b).2 → a.getD (a.length - (trimEnds a b).2 + i) 0 = b.getD (b.length - (trimEnds a b).2 + i) 0) := by
  obtain ⟨h1, h2, h3⟩ := commonPrefix_eq a b
  obtain ⟨g1, g2, g3⟩ := commonPrefix_eq a.reverse b.reverse
  rw [List.length_reverse] at g1 g2
  have e1 : (trimEnds a b).1 = commonPrefix a b := rfl
  have e2 : (trimEnds a b).2 = min (min a.length b.length - commonPrefix a b) (commonPrefix a.reverse b.reverse) := rfl
  refine ⟨by omega, by omega, h3, ?_⟩
  intro i hi
  have := g3 ((trimEnds a b).2 - 1 - i) (by omega)
  rw [reverse_getD (by omega), reverse_getD (by omega)] at this
  rwa [show a.length - 1 - ((trimEnds a b).2 - 1 - i) = a.length - (trimEnds a b).2 + i by omega,
    show b.length - 1 - ((trimEnds a b).2 - 1 - i) = b.length - (trimEnds a b).2 + i by omega] at this

/-! ## Cleaning up -/

theorem cleanup_index (first : Bool) (cf : List Cls) (ha : List Nat) (s e : Nat) : Index (cleanup first cf ha s e).1 (cleanup first cf ha s e).2.length := by
  have hnd : (cleanup first cf ha s e).1.Nodup := List.Pairwise.filter _ List.nodup_range
  refine ⟨?_, ?_⟩
  · intro i j hi hj he
    rw [List.getD_eq_getElem?_getD, List.getD_eq_getElem?_getD, List.getElem?_eq_getElem hi, List.getElem?_eq_getElem hj] at he
    simp only [Option.getD_some] at he
    have hp := List.pairwise_iff_getElem.mp hnd
    rcases Nat.lt_trichotomy i j with h | h | h
    · exact absurd he (hp i j hi hj h)
    · exact h
    · exact absurd he.symm (hp j i hj hi h)
  · intro i hi
    rw [List.getD_eq_getElem?_getD, List.getElem?_eq_getElem hi]
    have : (cleanup first cf ha s e).1[i] ∈ (cleanup first cf ha s e).1 := List.getElem_mem hi
    have := (List.mem_filter.mp this).1
    rw [List.mem_range] at this
    simp only [cleanup, List.length_map, List.length_range]
    exact this

theorem cleanup_mem {first : Bool} {cf : List Cls} {ha : List Nat} {s e i : Nat} :
    i ∈ (cleanup first cf ha s e).1 ↔ i < ha.length ∧ (s ≤ i ∧ i < e) ∧ stays (disList first cf ha s e) s e i = true := by
  unfold cleanup
  dsimp only
  rw [List.mem_filter, List.mem_range, Bool.and_eq_true, decide_eq_true_eq]

theorem cleanup_rchg {first : Bool} {cf : List Cls} {ha : List Nat} {s e i : Nat} (hi : i < ha.length) :
    (cleanup first cf ha s e).2.getD i false = (decide (s ≤ i ∧ i < e) && !stays (disList first cf ha s e) s e i) := by
  unfold cleanup
  dsimp only
  rw [List.getD_eq_getElem?_getD, List.getElem?_map, List.getElem?_range hi]
  rfl

theorem K_map {x : List Nat} {g : Nat → Nat} {r : List Bool} : K (x.map g) x r 0 x.length = (x.filter fun i => !r.getD i false).map g := by
  have hx : x = (List.range x.length).map fun j => x.getD j 0 := by
    apply List.ext_getElem
    · simp
    · intro i h1 h2
      rw [List.getElem_map, List.getElem_range, List.getD_eq_getElem?_getD, List.getElem?_eq_getElem h1]
      rfl
  have hrhs : (x.filter fun i => !r.getD i false).map g = (((List.range x.length).map fun j => x.getD j 0).filter fun i => !r.getD i false).map g := by rw [← hx]
  rw [hrhs, List.filter_map, List.map_map]
  unfold K
  rw [Nat.sub_zero, ← List.range_eq_range']
  apply List.map_congr_left
  intro j hj
  have := (List.mem_filter.mp hj).1
  rw [List.mem_range] at this
  rw [Function.comp_apply, List.getD_eq_getElem?_getD, List.getElem?_map, List.getElem?_eq_getElem this, List.getD_eq_getElem?_getD, List.getElem?_eq_getElem this]
  rfl

/-- the unmarked lines of the middle are those that were compared and not marked -/
theorem middle {first : Bool} {cf : List Cls} {ha : List Nat} {s e : Nat} (he : e ≤ ha.length) {r' : List Bool}
    (ho : ∀ i, (∀ j, 0 ≤ j → j < (cleanup first cf ha s e).1.length → (cleanup first cf ha s e).1.getD j 0 ≠ i) → r'.getD i false = (cleanup first cf ha s e).2.getD i false) :
    K ha (List.range ha.length) r' s e = K ((cleanup first cf ha s e).1.map fun i => ha.getD i 0) (cleanup first cf ha s e).1 r' 0 (cleanup first cf ha s e).1.length := by
  rw [K_map]
  unfold K
  congr 1
  have hr : List.range' s (e - s) = (List.range ha.length).filter fun i => decide (s ≤ i ∧ i < e) := by
    by_cases hse : s ≤ e
    · have e1 : List.range ha.length = List.range' 0 s ++ (List.range' s (e - s) ++ List.range' e (ha.length - e)) := by
        have h2 : List.range' s (e - s) ++ List.range' e (ha.length - e) = List.range' s (ha.length - s) := by
          have := List.range'_append (s := s) (m := e - s) (n := ha.length - e) (step := 1)
          rw [show s + 1 * (e - s) = e by omega, show e - s + (ha.length - e) = ha.length - s by omega] at this
          exact this
        have h3 := List.range'_append (s := 0) (m := s) (n := ha.length - s) (step := 1)
        rw [show 0 + 1 * s = s by omega, show s + (ha.length - s) = ha.length by omega] at h3
        rw [h2, h3, List.range_eq_range']
      rw [e1, List.filter_append, List.filter_append]
      rw [List.filter_eq_nil_iff.mpr (by intro i hi; rw [List.mem_range'_1] at hi; simp; omega), List.nil_append]
      rw [(List.filter_eq_nil_iff (l := List.range' e (ha.length - e))).mpr (by intro i hi; rw [List.mem_range'_1] at hi; simp; omega), List.append_nil]
      rw [List.filter_eq_self.mpr]
      intro i hi; rw [List.mem_range'_1] at hi; simp; omega
    · rw [show e - s = 0 by omega]
      symm
      rw [List.range'_zero, List.filter_eq_nil_iff]
      intro i hi; simp; omega
  rw [hr]
  show _ = (((List.range ha.length).filter fun i => decide (s ≤ i ∧ i < e) && stays (disList first cf ha s e) s e i)).filter _
  rw [List.filter_filter, List.filter_filter]
  apply List.filter_congr
  intro i hi
  rw [List.mem_range] at hi
  rw [range_getD hi]
  by_cases hd : s ≤ i ∧ i < e
  · rw [decide_eq_true hd, Bool.true_and, Bool.and_true]
    cases hst : stays (disList first cf ha s e) s e i with
    | true => rw [Bool.and_true]
    | false =>
      have : r'.getD i false = true := by
        rw [ho i ?_, cleanup_rchg hi, decide_eq_true hd, hst]
        · rfl
        · intro j _ hj heq
          have hm : i ∈ (cleanup first cf ha s e).1 := by
            rw [← heq, List.getD_eq_getElem?_getD, List.getElem?_eq_getElem hj]
            exact List.getElem_mem hj
          have := (cleanup_mem.mp hm).2.2
          rw [hst] at this
          cases this
      rw [this]; rfl
  · rw [decide_eq_false hd]; simp

theorem doDiff_eq (minimal : Bool) {old new : List Bytes} (hsz : old.length + new.length < 2 ^ 62) : ∃ ha1 r1 ha2 r2 cls, doDiff minimal old new = .ok ((ha1, r1), (ha2, r2)) ∧
    ha1.length = r1.length ∧ ha2.length = r2.length ∧ ha1.map cls = old ∧ ha2.map cls = new ∧ kept ha1 r1 = kept ha2 r2 ∧
    (old = new → r1 = List.replicate old.length false ∧ r2 = List.replicate old.length false) ∧
    (∀ p x y s, old = p ++ x ++ s → new = p ++ y ++ s → p.length + s.length ≤ (kept ha1 r1).length) := by
  obtain ⟨p1, p2, p3, p4, p5⟩ := prepareCtx_eq true old [] cfInv_nil
  obtain ⟨q1, q2, q3, q4, q5⟩ := prepareCtx_eq false new _ p1
  unfold doDiff
  dsimp only
  generalize hc1 : prepareCtx true [] old = c1 at *
  generalize hc2 : prepareCtx false c1.1 new = c2 at *
  have hl1 : c1.2.length = old.length := by rw [← p5, List.length_map]
  have hl2 : c2.2.length = new.length := by rw [← q5, List.length_map]
  have hold : c1.2.map (lineOf c2.1) = old := by
    conv => rhs; rw [← p5]
    apply List.map_congr_left
    intro i hi
    exact q3 i (p4 i hi)
  obtain ⟨t1, t2, t3, t4⟩ := trimEnds_eq c1.2 c2.2
  generalize ht : trimEnds c1.2 c2.2 = t at *
  have x1 := cleanup_index true c2.1 c1.2 t.1 (c1.2.length - t.2)
  have x2 := cleanup_index false c2.1 c2.2 t.1 (c2.2.length - t.2)
  generalize hP1 : cleanup true c2.1 c1.2 t.1 (c1.2.length - t.2) = P1 at *
  generalize hP2 : cleanup false c2.1 c2.2 t.1 (c2.2.length - t.2) = P2 at *
  have len1 : P1.2.length = c1.2.length := by rw [← hP1]; simp [cleanup]
  have len2 : P2.2.length = c2.2.length := by rw [← hP2]; simp [cleanup]
  have le1 : P1.1.length ≤ c1.2.length := by
    rw [← hP1]
    have := List.length_filter_le (fun i => decide (t.1 ≤ i ∧ i < c1.2.length - t.2) && stays (disList true c2.1 c1.2 t.1 (c1.2.length - t.2)) t.1 (c1.2.length - t.2) i) (List.range c1.2.length)
    rw [List.length_range] at this
    exact this
  have le2 : P2.1.length ≤ c2.2.length := by
    rw [← hP2]
    have := List.length_filter_le (fun i => decide (t.1 ≤ i ∧ i < c2.2.length - t.2) && stays (disList false c2.1 c2.2 t.1 (c2.2.length - t.2)) t.1 (c2.2.length - t.2) i) (List.range c2.2.length)
    rw [List.length_range] at this
    exact this
  have un1 : ∀ j, j < P1.1.length → P1.2.getD (P1.1.getD j 0) false = false := by
    intro j hj
    have hm : P1.1.getD j 0 ∈ P1.1 := by
      rw [List.getD_eq_getElem?_getD, List.getElem?_eq_getElem hj]; exact List.getElem_mem hj
    rw [← hP1] at hm ⊢
    obtain ⟨m1, m2, m3⟩ := cleanup_mem.mp hm
    rw [cleanup_rchg m1, m3]; simp
  have un2 : ∀ j, j < P2.1.length → P2.2.getD (P2.1.getD j 0) false = false := by
    intro j hj
    have hm : P2.1.getD j 0 ∈ P2.1 := by
      rw [List.getD_eq_getElem?_getD, List.getElem?_eq_getElem hj]; exact List.getElem_mem hj
    rw [← hP2] at hm ⊢
    obtain ⟨m1, m2, m3⟩ := cleanup_mem.mp hm
    rw [cleanup_rchg m1, m3]; simp
  obtain ⟨r, er, d⟩ := recsCmp_eq (h1 := P1.1.map fun i => c1.2.getD i 0) (h2 := P2.1.map fun i => c2.2.getD i 0) (x1 := P1.1) (x2 := P2.1)
    (env := ⟨if bogosqrt ((P1.1.map fun i => c1.2.getD i 0).length + (P2.1.map fun i => c2.2.getD i 0).length + 3) < 256 then 256 else bogosqrt ((P1.1.map fun i => c1.2.getD i 0).length + (P2.1.map fun i => c2.2.getD i 0).length + 3), 20, 256⟩) (by simp)
    (by simp only [List.length_map]; omega) (by simp) (by simp)
    ((P1.1.map fun i => c1.2.getD i 0).length + (P2.1.map fun i => c2.2.getD i 0).length + 1) 0 (P1.1.map fun i => c1.2.getD i 0).length 0 (P2.1.map fun i => c2.2.getD i 0).length minimal (P1.2, P2.2)
    (by omega) (by omega) (by omega) (Nat.le_refl _) (Nat.le_refl _) x1 x2 (fun j _ hj => un1 j (by simpa using hj)) (fun j _ hj => un2 j (by simpa using hj))
  rw [er, Res.bind_ok]
  have dl1 := d.l1; have dl2 := d.l2
  dsimp only at dl1 dl2
  have k := d.k
  have o1 := d.o1
  have o2 := d.o2
  simp only [List.length_map] at k o1 o2
  have m1 := middle (first := true) (cf := c2.1) (ha := c1.2) (s := t.1) (e := c1.2.length - t.2) (by omega) (r' := r.1) (by rw [hP1]; exact o1)
  have m2 := middle (first := false) (cf := c2.1) (ha := c2.2) (s := t.1) (e := c2.2.length - t.2) (by omega) (r' := r.2) (by rw [hP2]; exact o2)
  rw [hP1] at m1
  rw [hP2] at m2
  have unm1 : ∀ i, i < c1.2.length → ¬ (t.1 ≤ i ∧ i < c1.2.length - t.2) → r.1.getD i false = false := by
    intro i hi hn
    rw [o1 i ?_, ← hP1, cleanup_rchg hi, decide_eq_false hn]
    · rfl
    · intro j _ hj heq
      have hm : i ∈ P1.1 := by
        rw [← heq, List.getD_eq_getElem?_getD, List.getElem?_eq_getElem hj]; exact List.getElem_mem hj
      rw [← hP1] at hm
      exact hn (cleanup_mem.mp hm).2.1
  have unm2 : ∀ i, i < c2.2.length → ¬ (t.1 ≤ i ∧ i < c2.2.length - t.2) → r.2.getD i false = false := by
    intro i hi hn
    rw [o2 i ?_, ← hP2, cleanup_rchg hi, decide_eq_false hn]
    · rfl
    · intro j _ hj heq
      have hm : i ∈ P2.1 := by
        rw [← heq, List.getD_eq_getElem?_getD, List.getElem?_eq_getElem hj]; exact List.getElem_mem hj
      rw [← hP2] at hm
      exact hn (cleanup_mem.mp hm).2.1
  have cls_inj : ∀ i j, i < c1.2.length → j < c2.2.length → old.getD i [] = new.getD j [] → c1.2.getD i 0 = c2.2.getD j 0 := by
    intro i j h1 h2 he
    have g1 : c1.2.getD i 0 = c1.2[i] := by rw [List.getD_eq_getElem?_getD, List.getElem?_eq_getElem h1]; rfl
    have g2 : c2.2.getD j 0 = c2.2[j] := by rw [List.getD_eq_getElem?_getD, List.getElem?_eq_getElem h2]; rfl
    rw [g1, g2]
    apply lineOf_inj q1
    · have := p4 _ (List.getElem_mem h1); omega
    · exact q4 _ (List.getElem_mem h2)
    · rw [← hold, ← q5, List.getD_eq_getElem?_getD, List.getD_eq_getElem?_getD, List.getElem?_map, List.getElem?_map, List.getElem?_eq_getElem h1, List.getElem?_eq_getElem h2] at he
      exact he
  refine ⟨_, _, _, _, lineOf c2.1, rfl, by omega, by omega, hold, q5, ?_, ?_, ?_⟩
  · rw [kept_K (by omega), kept_K (by omega)]
    rw [K_split (m := t.1) (by omega) (by omega), K_split (a := t.1) (m := c1.2.length - t.2) (by omega) (by omega),
      K_split (h := c2.2) (m := t.1) (by omega) (by omega), K_split (h := c2.2) (a := t.1) (m := c2.2.length - t.2) (by omega) (by omega), m1, m2, k]
    congr 1
    · have := K_match (h1 := c1.2) (h2 := c2.2) (x1 := List.range c1.2.length) (x2 := List.range c2.2.length) (r1 := r.1) (r2 := r.2) t.1 0 0
        (fun j hj => by rw [Nat.zero_add]; exact t3 j hj)
        (fun j hj => by rw [Nat.zero_add, range_getD (by omega)]; exact unm1 j (by omega) (by omega))
        (fun j hj => by rw [Nat.zero_add, range_getD (by omega)]; exact unm2 j (by omega) (by omega))
      rwa [Nat.zero_add] at this
    · congr 1
      have := K_match (h1 := c1.2) (h2 := c2.2) (x1 := List.range c1.2.length) (x2 := List.range c2.2.length) (r1 := r.1) (r2 := r.2) t.2 (c1.2.length - t.2) (c2.2.length - t.2)
        (fun j hj => t4 j hj)
        (fun j hj => by rw [range_getD (by omega)]; exact unm1 _ (by omega) (by omega))
        (fun j hj => by rw [range_getD (by omega)]; exact unm2 _ (by omega) (by omega))
      rwa [show c1.2.length - t.2 + t.2 = c1.2.length by omega, show c2.2.length - t.2 + t.2 = c2.2.length by omega] at this
  · intro heq
    have hc : c1.2 = c2.2 := by
      apply List.ext_getElem (by rw [hl1, hl2, heq])
      intro i h1 h2
      apply lineOf_inj q1
      · have := p4 _ (List.getElem_mem h1); omega
      · exact q4 _ (List.getElem_mem h2)
      · have e : (c1.2.map (lineOf c2.1))[i]'(by simpa using h1) = (c2.2.map (lineOf c2.1))[i]'(by simpa using h2) := by
          have : c1.2.map (lineOf c2.1) = c2.2.map (lineOf c2.1) := by rw [hold, q5, heq]
          simp only [this]
        simpa using e
    have htl : t.1 = c1.2.length := by
      rw [← ht, ← hc]
      exact commonPrefix_self _
    have hnil1 : P1.1 = [] := by
      rw [List.eq_nil_iff_forall_not_mem]
      intro i hi
      rw [← hP1] at hi
      have := (cleanup_mem.mp hi).2.1
      omega
    have hnil2 : P2.1 = [] := by
      rw [List.eq_nil_iff_forall_not_mem]
      intro i hi
      rw [← hP2] at hi
      have := (cleanup_mem.mp hi)
      rw [← hc] at this
      omega
    have allf : ∀ (r : List Bool) (n : Nat), r.length = n → (∀ i, i < n → r.getD i false = false) → r = List.replicate n false := by
      intro r n hl h
      apply List.ext_getElem
      · simp [hl]
      · intro i h1 h2
        have := h i (by omega)
        rw [List.getD_eq_getElem?_getD, List.getElem?_eq_getElem h1] at this
        rw [List.getElem_replicate]
        exact this
    constructor
    · apply allf _ _ (by omega)
      intro i hi
      have e : r.1.getD i false = P1.2.getD i false := d.o1 i (by rw [hnil1]; intro j _ h; exact absurd h (Nat.not_lt_zero _))
      rw [e, ← hP1, cleanup_rchg (by omega), decide_eq_false (by omega)]
      rfl
    · have hln : new.length = old.length := by rw [heq]
      apply allf _ _ (by omega)
      intro i hi
      have e : r.2.getD i false = P2.2.getD i false := d.o2 i (by rw [hnil2]; intro j _ h; exact absurd h (Nat.not_lt_zero _))
      rw [e, ← hP2, cleanup_rchg (by omega), decide_eq_false (by omega)]
      rfl

  · intro p x y s' hp hq
    rw [kept_K (by omega), K_split (m := t.1) (by omega) (by omega), K_split (a := t.1) (m := c1.2.length - t.2) (by omega) (by omega), List.length_append, List.length_append,
      K_full (m := t.1) (by intro j h1 h2; rw [range_getD (by omega)]; exact unm1 j (by omega) (by omega)),
      K_full (a := c1.2.length - t.2) (by intro j h1 h2; rw [range_getD (by omega)]; exact unm1 j (by omega) (by omega))]
    have hpo : old.length = p.length + x.length + s'.length := by rw [hp, List.length_append, List.length_append]
    have hpn : new.length = p.length + y.length + s'.length := by rw [hq, List.length_append, List.length_append]
    have b1 : p.length ≤ t.1 := by
      rw [← ht]
      apply commonPrefix_max (by omega) (by omega)
      intro i hi
      apply cls_inj _ _ (by omega) (by omega)
      rw [hp, hq]
      simp only [List.getD_eq_getElem?_getD]
      rw [List.append_assoc, List.append_assoc, List.getElem?_append_left hi, List.getElem?_append_left hi]
    have b2 : s'.length ≤ commonPrefix c1.2.reverse c2.2.reverse := by
      apply commonPrefix_max (by rw [List.length_reverse]; omega) (by rw [List.length_reverse]; omega)
      intro i hi
      rw [reverse_getD (by omega), reverse_getD (by omega)]
      apply cls_inj _ _ (by omega) (by omega)
      rw [hp, hq]
      simp only [List.getD_eq_getElem?_getD]
      rw [List.getElem?_append_right (by simp only [List.length_append]; omega), List.getElem?_append_right (by simp only [List.length_append]; omega)]
      simp only [List.length_append]
      congr 2
      omega
    have e2 : t.2 = min (min c1.2.length c2.2.length - t.1) (commonPrefix c1.2.reverse c2.2.reverse) := by rw [← ht]; rfl
    omega

end Verif.Xdiff
