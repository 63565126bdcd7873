import Verif.Xdiff.Lemmas7
/-! # The marks as a script -/
namespace Verif.Xdiff
open Spec Verif.Patch Verif.Patch.Spec

/-- one more line that is the same in both files at the beginning of a script -/
def prep (x : Bytes) : List Step → List Bytes → List Step × List Bytes
  | [], tail => ([], x :: tail)
  | s :: ss, tail => ({ s with same := x :: s.same } :: ss, tail)

theorem prep_old (x : Bytes) (ss : List Step) (tail : List Bytes) : scriptOld (prep x ss tail).1 (prep x ss tail).2 = x :: scriptOld ss tail := by cases ss <;> rfl

theorem prep_new (x : Bytes) (ss : List Step) (tail : List Bytes) : scriptNew (prep x ss tail).1 (prep x ss tail).2 = x :: scriptNew ss tail := by cases ss <;> rfl

theorem prep_common (x : Bytes) (ss : List Step) (tail : List Bytes) : common (prep x ss tail).1 (prep x ss tail).2 = x :: common ss tail := by cases ss <;> rfl

theorem prep_changes (x : Bytes) (ss : List Step) (tail : List Bytes) (p1 p2 : Nat) : changesOf p1 p2 (prep x ss tail).1 = changesOf (p1 + 1) (p2 + 1) ss := by
  cases ss with
  | nil => rfl
  | cons s ss =>
    show changesOf p1 p2 ({ s with same := x :: s.same } :: ss) = _
    rw [changesOf, changesOf]
    simp only [List.length_cons]
    rw [show p1 + (s.same.length + 1) = p1 + 1 + s.same.length by omega, show p2 + (s.same.length + 1) = p2 + 1 + s.same.length by omega]

theorem prep_fine {x : Bytes} {ss : List Step} {tail : List Bytes} (h : ∀ s ∈ ss, s.del ≠ [] ∨ s.add ≠ []) (h2 : ∀ s ∈ ss.tail, s.same ≠ []) :
    (∀ s ∈ (prep x ss tail).1, s.del ≠ [] ∨ s.add ≠ []) ∧ ∀ s ∈ (prep x ss tail).1, s.same ≠ [] := by
  cases ss with
  | nil => exact ⟨by intro s hs; simp [prep] at hs, by intro s hs; simp [prep] at hs⟩
  | cons s ss =>
    constructor
    · intro t ht
      rcases List.mem_cons.mp ht with rfl | ht
      · exact h s (by simp)
      · exact h t (List.mem_cons_of_mem _ ht)
    · intro t ht
      rcases List.mem_cons.mp ht with rfl | ht
      · simp
      · exact h2 t ht

/-- a list whose last element is known -/
theorem snoc {α : Type} {l : List α} {n : Nat} (h : l.length = n + 1) : ∃ x v, l = x ++ [v] ∧ x.length = n := by
  have hne : l ≠ [] := by intro e; subst e; simp at h
  exact ⟨l.dropLast, l.getLast hne, (List.dropLast_concat_getLast hne).symm, by rw [List.length_dropLast]; omega⟩

theorem buildLoop_eq : ∀ (L1 L2 : List Nat) (a1 a2 n : Nat) (o1 o2 : List Bytes) (q1 q2 : List Bool) (ss : List Step) (tail : List Bytes), L1.length = L2.length → L1.length < n →
    o1.length = (encL L1).length + a1 → o2.length = (encL L2).length + a2 → kept o1 (encL L1 ++ List.replicate a1 true) = kept o2 (encL L2 ++ List.replicate a2 true) →
    (∀ s ∈ ss, s.del ≠ [] ∨ s.add ≠ []) → (∀ s ∈ ss, s.same ≠ []) →
    ∃ ss' tail', buildLoop ((encL L1 ++ List.replicate a1 true) ++ q1) ((encL L2 ++ List.replicate a2 true) ++ q2) n o1.length o2.length (changesOf o1.length o2.length ss) = .ok (changesOf 0 0 ss') ∧
      scriptOld ss' tail' = o1 ++ scriptOld ss tail ∧ scriptNew ss' tail' = o2 ++ scriptNew ss tail ∧ (∀ s ∈ ss', s.del ≠ [] ∨ s.add ≠ []) ∧ (∀ s ∈ ss'.tail, s.same ≠ []) ∧
      common ss' tail' = kept o1 (encL L1 ++ List.replicate a1 true) ++ common ss tail := by
  intro L1
  induction L1 with
  | nil =>
    intro L2 a1 a2 n o1 o2 q1 q2 ss tail hL hn h1 h2 hk f1 f2
    have : L2 = [] := List.length_eq_zero_iff.mp (by simpa using hL.symm)
    subst this
    cases n with
    | zero => simp at hn
    | succ n =>
      rw [buildLoop, scanUp_eq (L := []) (a := a1) (x := q1) rfl h1, scanUp_eq (L := []) (a := a2) (x := q2) rfl h2]
      have hl0 : (encL []).length = 0 := rfl
      rw [if_pos (show (encL []).length = 0 ∧ (encL []).length = 0 from ⟨rfl, rfl⟩)]
      by_cases hc : (encL []).length ≠ o1.length ∨ (encL []).length ≠ o2.length
      · rw [if_pos hc]
        refine ⟨⟨[], o1, o2⟩ :: ss, tail, ?_, by simp [scriptOld], by simp [scriptNew], ?_, f2, by rw [encL, List.nil_append, kept_marked _ _ (by simpa [encL] using h1)]; rfl⟩
        · rw [changesOf]; simp [hl0]
        · intro s hs
          rcases List.mem_cons.mp hs with rfl | hs
          · rcases hc with hc | hc
            · left; intro e; apply hc; dsimp only at e; rw [e]; rfl
            · right; intro e; apply hc; dsimp only at e; rw [e]; rfl
          · exact f1 s hs
      · rw [if_neg hc]
        have e1 : o1 = [] := List.length_eq_zero_iff.mp (by omega)
        have e2 : o2 = [] := List.length_eq_zero_iff.mp (by omega)
        subst e1; subst e2
        exact ⟨ss, tail, rfl, rfl, rfl, f1, fun s hs => f2 s (List.mem_of_mem_tail hs), by rw [encL, List.nil_append, kept_marked _ _ (by simpa [encL] using h1)]; rfl⟩
  | cons b1 L1 ih =>
    intro L2 a1 a2 n o1 o2 q1 q2 ss tail hL hn h1 h2 hk f1 f2
    cases L2 with
    | nil => simp at hL
    | cons b2 L2 =>
      have hL' : L1.length = L2.length := by simpa using hL
      cases n with
      | zero => simp at hn
      | succ n =>
        obtain ⟨x1, y1, z1, e1, hx1, hy1⟩ := three o1 (i := (encL (b1 :: L1)).length) (j := a1) (by omega)
        obtain ⟨x2, y2, z2, e2, hx2, hy2⟩ := three o2 (i := (encL (b2 :: L2)).length) (j := a2) (by omega)
        have hz1 : z1 = [] := List.length_eq_zero_iff.mp (by have := congrArg List.length e1; simp only [List.length_append] at this; omega)
        have hz2 : z2 = [] := List.length_eq_zero_iff.mp (by have := congrArg List.length e2; simp only [List.length_append] at this; omega)
        subst hz1; subst hz2
        rw [List.append_nil] at e1 e2
        have c1 := encL_cons_length b1 L1
        have c2 := encL_cons_length b2 L2
        obtain ⟨w1, v1, ew1, hw1⟩ := snoc (l := x1) (n := (encL L1).length + b1) (by omega)
        obtain ⟨w2, v2, ew2, hw2⟩ := snoc (l := x2) (n := (encL L2).length + b2) (by omega)
        have hk' : kept w1 (encL L1 ++ List.replicate b1 true) = kept w2 (encL L2 ++ List.replicate b2 true) ∧ v1 = v2 := by
          rw [e1, e2, kept_append _ _ _ _ hx1, kept_append _ _ _ _ hx2, kept_marked _ _ hy1, kept_marked _ _ hy2, List.append_nil, List.append_nil, ew1, ew2, encL, encL,
            ← List.append_assoc, ← List.append_assoc, kept_append w1 _ _ _ (by simp [hw1]), kept_append w2 _ _ _ (by simp [hw2])] at hk
          simp only [kept, Bool.false_eq_true, if_false] at hk
          have := List.append_inj' hk rfl
          exact ⟨this.1, by simpa using this.2⟩
        obtain ⟨hk1, rfl⟩ := hk'
        -- the change, if there is one
        have hcs : ∃ ss1, (if (encL (b1 :: L1)).length ≠ o1.length ∨ (encL (b2 :: L2)).length ≠ o2.length then
              ({ i1 := (encL (b1 :: L1)).length, chg1 := o1.length - (encL (b1 :: L1)).length, i2 := (encL (b2 :: L2)).length, chg2 := o2.length - (encL (b2 :: L2)).length } : Change) ::
                changesOf o1.length o2.length ss else changesOf o1.length o2.length ss) = changesOf (encL (b1 :: L1)).length (encL (b2 :: L2)).length ss1 ∧
            scriptOld ss1 tail = y1 ++ scriptOld ss tail ∧ scriptNew ss1 tail = y2 ++ scriptNew ss tail ∧ (∀ s ∈ ss1, s.del ≠ [] ∨ s.add ≠ []) ∧ (∀ s ∈ ss1.tail, s.same ≠ []) ∧ common ss1 tail = common ss tail := by
          by_cases hc : (encL (b1 :: L1)).length ≠ o1.length ∨ (encL (b2 :: L2)).length ≠ o2.length
          · rw [if_pos hc]
            refine ⟨⟨[], y1, y2⟩ :: ss, ?_, rfl, rfl, ?_, f2, rfl⟩
            · rw [changesOf]
              simp only [List.length_nil, Nat.add_zero, hy1, hy2, ← h1, ← h2]
              rw [show o1.length - (encL (b1 :: L1)).length = a1 by omega, show o2.length - (encL (b2 :: L2)).length = a2 by omega]
            · intro s hs
              rcases List.mem_cons.mp hs with rfl | hs
              · dsimp only
                rcases hc with hc | hc
                · left; intro e; subst e; simp at hy1; omega
                · right; intro e; subst e; simp at hy2; omega
              · exact f1 s hs
          · rw [if_neg hc]
            have e1' : y1 = [] := List.length_eq_zero_iff.mp (by omega)
            have e2' : y2 = [] := List.length_eq_zero_iff.mp (by omega)
            subst e1'; subst e2'
            refine ⟨ss, ?_, rfl, rfl, f1, fun s hs => f2 s (List.mem_of_mem_tail hs), rfl⟩
            rw [show (encL (b1 :: L1)).length = o1.length by omega, show (encL (b2 :: L2)).length = o2.length by omega]
        obtain ⟨ss1, hcs, hs1, hs2, hs3, hs4, hs5⟩ := hcs
        rw [buildLoop, scanUp_eq (L := b1 :: L1) (a := a1) (x := q1) rfl h1, scanUp_eq (L := b2 :: L2) (a := a2) (x := q2) rfl h2]
        rw [hcs, if_neg (by omega), if_neg (by omega), show (encL (b1 :: L1)).length - 1 = w1.length by omega, show (encL (b2 :: L2)).length - 1 = w2.length by omega,
          show changesOf (encL (b1 :: L1)).length (encL (b2 :: L2)).length ss1 = changesOf w1.length w2.length (prep v1 ss1 tail).1 by
            rw [prep_changes, c1, c2, hw1, hw2]]
        obtain ⟨p1, p2⟩ := prep_fine (x := v1) (tail := tail) hs3 hs4
        obtain ⟨ss', tail', r1, r2, r3, r4, r5, r6⟩ := ih L2 b1 b2 n w1 w2 (false :: (List.replicate a1 true ++ q1)) (false :: (List.replicate a2 true ++ q2)) (prep v1 ss1 tail).1 (prep v1 ss1 tail).2 hL'
          (by simpa using hn) hw1 hw2 hk1 p1 p2
        refine ⟨ss', tail', ?_, ?_, ?_, r4, r5, ?_⟩
        · rw [← r1]
          simp only [encL, List.append_assoc, List.singleton_append, List.nil_append, List.cons_append]
        · rw [r2, prep_old, hs1, e1, ew1]; simp
        · rw [r3, prep_new, hs2, e2, ew2]; simp
        · rw [r6, prep_common, hs5, e1, kept_append _ _ _ _ hx1, kept_marked _ _ hy1, List.append_nil, ew1, encL, ← List.append_assoc, kept_append w1 _ _ _ (by simp [hw1])]
          simp [kept]

theorem enc_total : ∀ (R : List Nat) (L : List Nat) (a : Nat), ∃ L' a', enc L a R = encL L' ++ List.replicate a' true ∧ L'.length = L.length + R.length := by
  intro R
  induction R with
  | nil => intro L a; exact ⟨L, a, by simp [enc, encR], by simp⟩
  | cons b R ih =>
    intro L a
    obtain ⟨L', a', e, h⟩ := ih (a :: L) b
    exact ⟨L', a', by rw [← enc_next]; exact e, by rw [h]; simp; omega⟩

theorem buildScript_eq {old new : List Bytes} {r1 r2 : List Bool} (h1 : old.length = r1.length) (h2 : new.length = r2.length) (hk : kept old r1 = kept new r2) :
    ∃ steps tail, buildScript r1 r2 = .ok (changesOf 0 0 steps) ∧ scriptOld steps tail = old ∧ scriptNew steps tail = new ∧ (∀ s ∈ steps, s.del ≠ [] ∨ s.add ≠ []) ∧
      (∀ s ∈ steps.tail, s.same ≠ []) ∧ common steps tail = kept old r1 := by
  have hlen := congrArg List.length hk
  rw [kept_length_eq _ _ h1, kept_length_eq _ _ h2] at hlen
  obtain ⟨b1, R1, e1⟩ := exists_enc r1
  obtain ⟨b2, R2, e2⟩ := exists_enc r2
  rw [e1, e2, enc_runs, enc_runs] at hlen
  obtain ⟨L1, a1, f1, l1⟩ := enc_total R1 [] b1
  obtain ⟨L2, a2, f2, l2⟩ := enc_total R2 [] b2
  rw [f1] at e1
  rw [f2] at e2
  subst e1; subst e2
  simp only [List.length_append, List.length_replicate] at h1 h2
  have hle := length_le_encL L1
  simp only [List.length_nil, Nat.zero_add] at l1 l2
  obtain ⟨ss, tail, r1, r2, r3, r4, r5, r6⟩ := buildLoop_eq L1 L2 a1 a2 ((encL L1 ++ List.replicate a1 true).length + (encL L2 ++ List.replicate a2 true).length + 1) old new [] [] [] []
    (by omega) (by simp only [List.length_append, List.length_replicate]; omega) h1 h2 hk (by simp) (by simp)
  refine ⟨ss, tail, ?_, by rw [r2]; simp [scriptOld], by rw [r3]; simp [scriptNew], r4, r5, by rw [r6]; simp [common]⟩
  rw [← r1]
  unfold buildScript
  simp only [List.append_nil, List.length_append, List.length_replicate, changesOf, h1, h2]

theorem scanUp_none (n i : Nat) (h : i ≤ n) : scanUp (List.replicate n false) i = i := by
  unfold scanUp
  rw [List.take_replicate, List.reverse_replicate, Nat.min_eq_left h]
  cases i <;> simp [List.replicate_succ]

theorem buildLoop_none (n : Nat) : ∀ m i, i ≤ n → i < m → buildLoop (List.replicate n false) (List.replicate n false) m i i [] = .ok [] := by
  intro m
  induction m with
  | zero => intro i _ h; omega
  | succ m ih =>
    intro i hi hm
    rw [buildLoop, scanUp_none n i hi]
    rw [if_neg (show ¬ (i ≠ i ∨ i ≠ i) by omega)]
    by_cases h : i = 0
    · rw [if_pos (show i = 0 ∧ i = 0 from ⟨h, h⟩)]
    · rw [if_neg (show ¬ (i = 0 ∧ i = 0) by omega), if_neg (show ¬ (i = 0 ∨ i = 0) by omega)]
      exact ih (i - 1) (by omega) (by omega)

theorem kept_none {α : Type} : ∀ l : List α, kept l (List.replicate l.length false) = l
  | [] => rfl
  | a :: l => by rw [List.length_cons, List.replicate_succ, kept, if_neg (by simp), kept_none l]

theorem unmarked {α : Type} {l : List α} {r : List Bool} (h : l.length = r.length) (hk : kept l r = l) : r = List.replicate l.length false := by
  have h2 := kept_length_eq l r h
  rw [hk] at h2
  have h3 : ∀ b ∈ r, b = false := by
    have := (List.length_filter_eq_length_iff (p := fun b : Bool => decide (b = false)) (l := r)).mp (by omega)
    intro b hb
    simpa using this b hb
  exact List.eq_replicate_iff.mpr ⟨h.symm, h3⟩

theorem script_eq (minimal indent : Bool) {old new : List Bytes} (hsz : old.length + new.length < 2 ^ 62) :
    ∃ steps tail, script minimal indent old new = .ok (changesOf 0 0 steps) ∧ scriptOld steps tail = old ∧ scriptNew steps tail = new ∧ (∀ s ∈ steps, s.del ≠ [] ∨ s.add ≠ []) ∧
      (∀ s ∈ steps.tail, s.same ≠ []) ∧ (steps = [] ↔ old = new) ∧
      (∀ p x y s, old = p ++ x ++ s → new = p ++ y ++ s → p.length + s.length ≤ (common steps tail).length) := by
  obtain ⟨ha1, r1, ha2, r2, cls, e, l1, l2, m1, m2, hk, heq, hps⟩ := doDiff_eq minimal hsz
  have o1 : old.length = ha1.length := by rw [← m1, List.length_map]
  have o2 : new.length = ha2.length := by rw [← m2, List.length_map]
  obtain ⟨s1, c1, d1, k1⟩ := changeCompact_eq indent (lines := old) o1 l1 l2 (congrArg List.length hk)
  obtain ⟨s2, c2, d2, k2⟩ := changeCompact_eq indent (lines := new) o2 l2 (hb := ha1) (ro := s1) d1.symm (by rw [k1]; exact congrArg List.length hk.symm)
  have hkk : kept old s1 = kept new s2 := by
    rw [← m1, ← m2, kept_map, kept_map, k1, k2, hk]
  obtain ⟨steps, tail, b, f1, f2, f3, f4, f5⟩ := buildScript_eq (by omega) (by omega) hkk
  have hs : script minimal indent old new = .ok (changesOf 0 0 steps) := by
    unfold script
    rw [e, Res.bind_ok]
    dsimp only
    rw [c1, Res.bind_ok, c2, Res.bind_ok, b]
  refine ⟨steps, tail, hs, f1, f2, f3, f4, ⟨?_, ?_⟩, ?_⟩
  · intro h
    subst h
    exact f1.symm.trans f2
  · intro h
    obtain ⟨g1, g2⟩ := heq h
    have hn : new.length = old.length := by rw [h]
    have q1 : s1 = List.replicate old.length false := by
      rw [o1]; apply unmarked d1.symm
      rw [k1, g1, o1, kept_none]
    have q2 : s2 = List.replicate old.length false := by
      rw [← hn, o2]; apply unmarked d2.symm
      rw [k2, g2, ← hn, o2, kept_none]
    have : buildScript s1 s2 = .ok [] := by
      rw [q1, q2]
      unfold buildScript
      simp only [List.length_replicate]
      exact buildLoop_none _ _ _ (Nat.le_refl _) (by omega)
    rw [b] at this
    cases steps with
    | nil => rfl
    | cons s ss => rw [changesOf] at this; cases this
  · intro p x y s hp hq
    have := hps p x y s hp hq
    rw [f5, ← m1, kept_map, List.length_map, k1]
    exact this

end Verif.Xdiff
