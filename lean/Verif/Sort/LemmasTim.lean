import Verif.Sort.Lemmas
namespace Verif.Sort
open Spec
variable {α : Type} {cmp : α → α → Int}

/-! ### merging -/

theorem set_at (P S : List α) (y x : α) (k : Nat) (hk : k = P.length) : (P ++ y :: S).set k x = P ++ x :: S := by
  subst hk; rw [List.set_append_right _ _ (Nat.le_refl _)]; simp

theorem get_at (P S : List α) (y : α) (k : Nat) (hk : k = P.length) : (P ++ y :: S)[k]? = some y := by
  subst hk; simp

theorem sorted_cons {a : α} {l : List α} : Sorted cmp (a :: l) ↔ (∀ x ∈ l, cmp a x ≤ 0) ∧ Sorted cmp l := by
  unfold Sorted; exact List.pairwise_cons

/-- the left merge: `L` is what is left of the copied lower run, `J` the gap it left in the array, `R` what is left of the upper run -/
theorem mergeLeft_ok (hc : TotalPreorder cmp) (n : Nat) : ∀ (P J R S done L : List α) (i j k hi A : Nat),
    J.length = L.length → i = done.length → A = done.length + L.length → k = P.length → j = P.length + J.length →
    hi = j + R.length → n = L.length + R.length → Sorted cmp L → Sorted cmp R →
    ∃ O, mergeLeft cmp (done ++ L) A hi n i j k (P ++ (J ++ (R ++ S))) = .ok (P ++ (O ++ S)) ∧ StableSort cmp (L ++ R) O := by
  induction n with
  | zero =>
    intro P J R S done L i j k hi A hJ _ _ _ _ _ hn hL hR
    have hL0 : L = [] := List.length_eq_zero_iff.mp (by omega)
    have hR0 : R = [] := List.length_eq_zero_iff.mp (by omega)
    subst hL0 hR0
    have hJ0 : J = [] := List.length_eq_zero_iff.mp (by simpa using hJ)
    subst hJ0
    exact ⟨[], rfl, by simp [Sorted], .refl _⟩
  | succ n ih =>
    intro P J R S done L i j k hi A hJ hi' hA hk hj hhi hn hL hR
    have takeL : ∀ a L', L = a :: L' → (∀ b ∈ R, cmp a b ≤ 0) →
        (∃ O, (match wr (P ++ (J ++ (R ++ S))) k a with
          | .ok dst => mergeLeft cmp (done ++ L) A hi n (i + 1) j (k + 1) dst
          | _ => Res.ub) = .ok (P ++ (O ++ S)) ∧ StableSort cmp (L ++ R) O) := by
      intro a L' hL' hmin
      subst hL'
      cases J with
      | nil => simp at hJ
      | cons y J' =>
        rw [wr_ok (by simp; omega), List.cons_append, set_at _ _ _ _ _ hk]
        simp only
        rw [sorted_cons] at hL
        obtain ⟨O, h1, h2⟩ := ih (P ++ [a]) J' R S (done ++ [a]) L' (i + 1) j (k + 1) hi A (by simpa using hJ) (by simp; omega)
          (by simp at hA ⊢; omega) (by simp; omega) (by simp at hj ⊢; omega) hhi (by simp at hn; omega) hL.2 hR
        refine ⟨a :: O, by simpa using h1, ?_, ?_⟩
        · rw [sorted_cons]
          refine ⟨?_, h2.sorted⟩
          intro x hx
          rw [h2.stable.mem, List.mem_append] at hx
          rcases hx with hx | hx
          · exact hL.1 x hx
          · exact hmin x hx
        · exact (Stable.refl [a]).append h2.stable
    have takeR : ∀ b R', R = b :: R' → (∀ a ∈ L, 0 < cmp a b) →
        (∃ O, (match wr (P ++ (J ++ (R ++ S))) k b with
          | .ok dst => mergeLeft cmp (done ++ L) A hi n i (j + 1) (k + 1) dst
          | _ => Res.ub) = .ok (P ++ (O ++ S)) ∧ StableSort cmp (L ++ R) O) := by
      intro b R' hR' hmin
      subst hR'
      rw [sorted_cons] at hR
      have key : ∃ J', (P ++ (J ++ (b :: R' ++ S))).set k b = (P ++ [b]) ++ (J' ++ (R' ++ S)) ∧ J'.length = J.length := by
        cases J with
        | nil =>
          refine ⟨[], ?_, rfl⟩
          rw [List.nil_append, List.cons_append, set_at _ _ _ _ _ hk]; simp
        | cons y J' =>
          refine ⟨J' ++ [b], ?_, by simp⟩
          rw [List.cons_append, set_at _ _ _ _ _ hk]; simp
      obtain ⟨J', e1, e2⟩ := key
      rw [wr_ok (by simp; omega), e1]
      simp only
      obtain ⟨O, h1, h2⟩ := ih (P ++ [b]) J' R' S done L i (j + 1) (k + 1) hi A (by omega) hi' hA (by simp; omega)
        (by simp; omega) (by simp at hhi ⊢; omega) (by simp at hn; omega) hL hR.2
      refine ⟨b :: O, by simpa using h1, ?_, ?_⟩
      · rw [sorted_cons]
        refine ⟨?_, h2.sorted⟩
        intro x hx
        rw [h2.stable.mem, List.mem_append] at hx
        rcases hx with hx | hx
        · have := hc.le_of_gt (hmin x hx); omega
        · exact hR.1 x hx
      · have s1 : Stable cmp ((L ++ [b]) ++ R') (([b] ++ L) ++ R') :=
          (Stable.swap hc L [b] (by
            intro x hx y hy
            simp at hy; subst hy
            have := hmin x hx; omega)).append (.refl _)
        have s2 : Stable cmp ([b] ++ (L ++ R')) ([b] ++ O) := (Stable.refl [b]).append h2.stable
        simp only [List.append_assoc, List.singleton_append] at s1 s2 ⊢
        exact s1.trans s2
    have hstor : ∀ a L', L = a :: L' → (done ++ L)[i]? = some a := by
      intro a L' h; subst h; exact get_at _ _ _ _ hi'
    have hdst : ∀ b R', R = b :: R' → (P ++ (J ++ (R ++ S)))[j]? = some b := by
      intro b R' h; subst h
      rw [← List.append_assoc, List.cons_append]
      exact get_at _ _ _ _ (by simp; omega)
    rw [mergeLeft]
    by_cases h1 : i < A ∧ j < hi
    · rw [if_pos h1]
      cases hLe : L with
      | nil => rw [hLe] at hA; simp at hA; omega
      | cons a L' =>
        cases hRe : R with
        | nil => rw [hRe] at hhi; simp at hhi; omega
        | cons b R' =>
          have g1 := rd_ok (hstor a L' hLe)
          have g2 := rd_ok (hdst b R' hRe)
          rw [hLe] at g1
          rw [hRe] at g2
          rw [g1, g2]
          simp only
          by_cases hab : cmp a b ≤ 0
          · rw [if_pos hab]
            have := takeL a L' hLe (by
              rw [hRe] at hR ⊢
              rw [sorted_cons] at hR
              intro x hx
              rcases List.mem_cons.mp hx with h | h
              · subst h; exact hab
              · exact hc.trans _ _ _ hab (hR.1 x h))
            rw [hLe, hRe] at this
            exact this
          · rw [if_neg hab]
            have := takeR b R' hRe (by
              rw [hLe] at hL ⊢
              rw [sorted_cons] at hL
              intro x hx
              rcases List.mem_cons.mp hx with h | h
              · subst h; omega
              · exact hc.gt_of_lt (hc.lt_of_lt_of_le (hc.le_of_gt (by omega : 0 < cmp a b)) (hL.1 x h)))
            rw [hLe, hRe] at this
            exact this
    · rw [if_neg h1]
      by_cases h2 : i < A
      · rw [if_pos h2]
        have hR0 : R = [] := List.length_eq_zero_iff.mp (by omega)
        cases hLe : L with
        | nil => rw [hLe] at hA; simp at hA; omega
        | cons a L' =>
          have g1 := rd_ok (hstor a L' hLe)
          rw [hLe] at g1
          rw [g1]
          simp only
          have := takeL a L' hLe (by simp [hR0])
          rw [hLe] at this
          exact this
      · rw [if_neg h2]
        have hL0 : L = [] := List.length_eq_zero_iff.mp (by omega)
        cases hRe : R with
        | nil => rw [hRe, hL0] at hn; simp at hn
        | cons b R' =>
          have g2 := rd_ok (hdst b R' hRe)
          rw [hRe] at g2
          rw [g2]
          simp only
          have := takeR b R' hRe (by simp [hL0])
          rw [hRe] at this
          exact this

theorem exists_snoc (l : List α) (h : l ≠ []) : ∃ l' a, l = l' ++ [a] := by
  induction l using list_snoc_induction with
  | hnil => exact absurd rfl h
  | hsnoc l a _ => exact ⟨l, a, rfl⟩

theorem sorted_snoc {a : α} {l : List α} : Sorted cmp (l ++ [a]) ↔ Sorted cmp l ∧ ∀ x ∈ l, cmp x a ≤ 0 := by
  rw [sorted_append]; simp [Sorted]

/-- the right merge: `L` is what is left of the lower run, `J` the gap behind it, `R` what is left of the copied upper run -/
theorem mergeRight_ok (hc : TotalPreorder cmp) (n : Nat) : ∀ (P L J S R T : List α) (curr i1 j1 : Nat),
    J.length = R.length → curr = P.length → i1 = R.length → j1 = P.length + L.length → n = L.length + R.length →
    Sorted cmp L → Sorted cmp R →
    ∃ O, mergeRight cmp (R ++ T) curr n i1 j1 (P ++ (L ++ (J ++ S))) = .ok (P ++ (O ++ S)) ∧ StableSort cmp (L ++ R) O := by
  induction n with
  | zero =>
    intro P L J S R T curr i1 j1 hJ _ _ _ hn hL hR
    have hL0 : L = [] := List.length_eq_zero_iff.mp (by omega)
    have hR0 : R = [] := List.length_eq_zero_iff.mp (by omega)
    subst hL0 hR0
    have hJ0 : J = [] := List.length_eq_zero_iff.mp (by simpa using hJ)
    subst hJ0
    exact ⟨[], rfl, by simp [Sorted], .refl _⟩
  | succ n ih =>
    intro P L J S R T curr i1 j1 hJ hcurr hi hj hn hL hR
    have takeR : ∀ R' a, R = R' ++ [a] → (∀ b ∈ L, cmp b a ≤ 0) →
        (∃ O, (match wr (P ++ (L ++ (J ++ S))) (curr + n) a with
          | .ok dst => mergeRight cmp (R ++ T) curr n (i1 - 1) j1 dst
          | _ => Res.ub) = .ok (P ++ (O ++ S)) ∧ StableSort cmp (L ++ R) O) := by
      intro R' a hR' hmax
      obtain ⟨J', y, hJ'⟩ := exists_snoc J (by intro h; rw [h, hR'] at hJ; simp at hJ)
      subst hR' hJ'
      rw [sorted_snoc] at hR
      have hset : (P ++ (L ++ (J' ++ [y] ++ S))).set (curr + n) a = P ++ (L ++ (J' ++ (a :: S))) := by
        have : P ++ (L ++ (J' ++ [y] ++ S)) = (P ++ L ++ J') ++ y :: S := by simp
        rw [this, set_at _ _ _ _ _ (by simp at hJ hn ⊢; omega)]; simp
      rw [wr_ok (by simp at hn hJ ⊢; omega), hset]
      simp only
      obtain ⟨O, h1, h2⟩ := ih P L J' (a :: S) R' ([a] ++ T) curr (i1 - 1) j1 (by simp at hJ; omega) hcurr (by simp at hi; omega) hj
        (by simp at hn; omega) hL hR.1
      refine ⟨O ++ [a], by simpa using h1, ?_, ?_⟩
      · rw [sorted_snoc]
        refine ⟨h2.sorted, ?_⟩
        intro x hx
        rw [h2.stable.mem, List.mem_append] at hx
        rcases hx with hx | hx
        · exact hmax x hx
        · exact hR.2 x hx
      · have := h2.stable.append (Stable.refl (cmp := cmp) [a])
        simpa using this
    have takeL : ∀ L' b, L = L' ++ [b] → (∀ a ∈ R, cmp a b < 0) →
        (∃ O, (match wr (P ++ (L ++ (J ++ S))) (curr + n) b with
          | .ok dst => mergeRight cmp (R ++ T) curr n i1 (j1 - 1) dst
          | _ => Res.ub) = .ok (P ++ (O ++ S)) ∧ StableSort cmp (L ++ R) O) := by
      intro L' b hL' hmax
      subst hL'
      rw [sorted_snoc] at hL
      have key : ∃ J', (P ++ (L' ++ [b] ++ (J ++ S))).set (curr + n) b = P ++ (L' ++ (J' ++ (b :: S))) ∧ J'.length = J.length := by
        cases hJe : J.reverse with
        | nil =>
          have hJ0 : J = [] := by simpa using hJe
          subst hJ0
          refine ⟨[], ?_, rfl⟩
          have : P ++ (L' ++ [b] ++ ([] ++ S)) = (P ++ L') ++ b :: S := by simp
          rw [this, set_at _ _ _ _ _ (by simp at hJ hn ⊢; omega)]; simp
        | cons y J' =>
          have hJ0 : J = J'.reverse ++ [y] := by
            have := congrArg List.reverse hJe
            simpa using this
          refine ⟨b :: J'.reverse, ?_, by simp [hJ0]⟩
          have : P ++ (L' ++ [b] ++ (J ++ S)) = (P ++ (L' ++ (b :: J'.reverse))) ++ y :: S := by simp [hJ0]
          rw [this, set_at _ _ _ _ _ (by rw [hJ0] at hJ; simp at hJ hn ⊢; omega)]; simp
      obtain ⟨J', e1, e2⟩ := key
      rw [wr_ok (by simp at hn hJ ⊢; omega), e1]
      simp only
      obtain ⟨O, h1, h2⟩ := ih P L' J' (b :: S) R T curr i1 (j1 - 1) (by omega) hcurr hi (by simp at hj; omega) (by simp at hn; omega) hL.1 hR
      refine ⟨O ++ [b], by simpa using h1, ?_, ?_⟩
      · rw [sorted_snoc]
        refine ⟨h2.sorted, ?_⟩
        intro x hx
        rw [h2.stable.mem, List.mem_append] at hx
        rcases hx with hx | hx
        · exact hL.2 x hx
        · have := hmax x hx; omega
      · have s1 : Stable cmp (L' ++ ([b] ++ R)) (L' ++ (R ++ [b])) :=
          (Stable.refl L').append (Stable.swap hc [b] R (by
            intro x hx y hy
            simp at hx; subst hx
            have h1 := hmax y hy
            intro h2
            have := hc.eq_symm h2
            omega))
        have s2 : Stable cmp ((L' ++ R) ++ [b]) (O ++ [b]) := h2.stable.append (.refl [b])
        simp only [List.append_assoc] at s1 s2 ⊢
        exact s1.trans s2
    have hstor : ∀ R' a, R = R' ++ [a] → (R ++ T)[i1 - 1]? = some a := by
      intro R' a h; subst h
      rw [List.append_assoc]
      exact get_at _ _ _ _ (by simp at hi; omega)
    have hdst : ∀ L' b, L = L' ++ [b] → (P ++ (L ++ (J ++ S)))[j1 - 1]? = some b := by
      intro L' b h; subst h
      have : P ++ (L' ++ [b] ++ (J ++ S)) = (P ++ L') ++ b :: (J ++ S) := by simp
      rw [this]
      exact get_at _ _ _ _ (by simp at hj ⊢; omega)
    rw [mergeRight]
    by_cases h1 : 0 < i1 ∧ curr < j1
    · rw [if_pos h1]
      obtain ⟨L', b, hLe⟩ := exists_snoc L (by intro h; rw [h] at hj; simp at hj; omega)
      obtain ⟨R', a, hRe⟩ := exists_snoc R (by intro h; rw [h] at hi; simp at hi; omega)
      rw [rd_ok (hdst L' b hLe), rd_ok (hstor R' a hRe)]
      simp only
      by_cases hab : 0 < cmp b a
      · rw [if_pos hab]
        exact takeL L' b hLe (by
          rw [hRe] at hR ⊢
          rw [sorted_snoc] at hR
          intro x hx
          rcases List.mem_append.mp hx with h | h
          · exact hc.lt_of_le_of_lt (hR.2 x h) (hc.le_of_gt hab)
          · simp at h; subst h; exact hc.le_of_gt hab)
      · rw [if_neg hab]
        exact takeR R' a hRe (by
          rw [hLe] at hL ⊢
          rw [sorted_snoc] at hL
          intro x hx
          rcases List.mem_append.mp hx with h | h
          · exact hc.trans _ _ _ (hL.2 x h) (by omega)
          · simp at h; subst h; omega)
    · rw [if_neg h1]
      by_cases h2 : 0 < i1
      · rw [if_pos h2]
        have hL0 : L = [] := List.length_eq_zero_iff.mp (by omega)
        obtain ⟨R', a, hRe⟩ := exists_snoc R (by intro h; rw [h] at hi; simp at hi; omega)
        rw [rd_ok (hstor R' a hRe)]
        simp only
        exact takeR R' a hRe (by simp [hL0])
      · rw [if_neg h2]
        have hR0 : R = [] := List.length_eq_zero_iff.mp (by omega)
        obtain ⟨L', b, hLe⟩ := exists_snoc L (by intro h; rw [h, hR0] at hn; simp at hn)
        rw [if_neg (by rw [hLe] at hj; simp at hj; omega), rd_ok (hdst L' b hLe)]
        simp only
        exact takeL L' b hLe (by simp [hR0])

theorem merge_ok (hc : TotalPreorder cmp) (P L R S : List α) (ra rb : Run) (h1 : ra.start = P.length) (h2 : ra.length = L.length)
    (h3 : rb.length = R.length) (hL : Sorted cmp L) (hR : Sorted cmp R) :
    ∃ O, merge cmp (P ++ (L ++ (R ++ S))) ra rb = .ok (P ++ (O ++ S)) ∧ StableSort cmp (L ++ R) O := by
  unfold merge
  simp only [h1, h2, h3]
  split
  · have hcopy : copyOut (P ++ (L ++ (R ++ S))) P.length L.length = .ok L := by
      unfold copyOut; rw [if_pos (by simp), List.drop_left, List.take_left]
    rw [hcopy]
    simp only [Res.bind_ok]
    have := mergeLeft_ok hc (L.length + R.length) P L R S [] L 0 (P.length + L.length) P.length (P.length + L.length + R.length) L.length
      rfl rfl (by simp) rfl rfl rfl rfl hL hR
    simpa using this
  · have hcopy : copyOut (P ++ (L ++ (R ++ S))) (P.length + L.length) R.length = .ok R := by
      unfold copyOut
      rw [if_pos (by simp; omega)]
      have : P ++ (L ++ (R ++ S)) = (P ++ L) ++ (R ++ S) := by simp
      rw [this, ← List.length_append, List.drop_left, List.take_left]
    rw [hcopy]
    simp only [Res.bind_ok]
    have := mergeRight_ok hc (L.length + R.length) P L R S R [] P.length R.length (P.length + L.length) rfl rfl rfl rfl rfl hL hR
    simpa using this

/-! ### the run stack -/

/-- the stack `st` tiles the array prefix `d`, which is the original prefix `o` with every run sorted stably -/
inductive Tiled (cmp : α → α → Int) : List Run → List α → List α → Prop
  | nil : Tiled cmp [] [] []
  | cons {st o d so sd} : Tiled cmp st o d → StableSort cmp so sd → sd ≠ [] →
      Tiled cmp (⟨d.length, sd.length⟩ :: st) (o ++ so) (d ++ sd)

theorem Tiled.length {st : List Run} {o d : List α} (h : Tiled cmp st o d) : d.length = o.length := by
  induction h with
  | nil => rfl
  | cons _ hs _ ih => simp [ih, hs.stable.length]

/-- merging the two top runs -/
theorem Tiled.merge2 (hc : TotalPreorder cmp) {st : List Run} {a b : Run} {o d : List α} (h : Tiled cmp (b :: a :: st) o d) (rest : List α) :
    ∃ d', merge cmp (d ++ rest) a b = .ok (d' ++ rest) ∧ Tiled cmp (⟨a.start, a.length + b.length⟩ :: st) o d' := by
  cases h with
  | @cons _ o1 d1 so1 sd1 h1 hs1 n1 =>
    cases h1 with
    | @cons _ o2 d2 so2 sd2 h2 hs2 n2 =>
      obtain ⟨O, e1, e2⟩ := merge_ok hc d2 sd2 sd1 rest ⟨d2.length, sd2.length⟩ ⟨(d2 ++ sd2).length, sd1.length⟩ rfl rfl rfl
        hs2.sorted hs1.sorted
      refine ⟨d2 ++ O, by simpa using e1, ?_⟩
      have hO : O.length = sd2.length + sd1.length := by rw [e2.stable.length]; simp
      have := Tiled.cons h2 (so := so2 ++ so1) (sd := O) ⟨e2.sorted, (hs2.stable.append hs1.stable).trans e2.stable⟩
        (by intro h; rw [h] at hO; simp only [List.length_nil] at hO; exact n2 (List.length_eq_zero_iff.mp (by omega)))
      rw [hO] at this
      simpa using this

/-- merging the two runs below the top -/
theorem Tiled.merge3 (hc : TotalPreorder cmp) {st : List Run} {a b c : Run} {o d : List α} (h : Tiled cmp (c :: b :: a :: st) o d)
    (rest : List α) :
    ∃ d', merge cmp (d ++ rest) a b = .ok (d' ++ rest) ∧ Tiled cmp (c :: ⟨a.start, a.length + b.length⟩ :: st) o d' := by
  cases h with
  | @cons _ o0 d0 so0 sd0 h0 hs0 n0 =>
    obtain ⟨d', e1, e2⟩ := h0.merge2 hc (sd0 ++ rest)
    refine ⟨d' ++ sd0, by simpa using e1, ?_⟩
    have hl : d'.length = d0.length := by rw [e2.length, h0.length]
    rw [← hl]
    exact .cons e2 hs0 n0

theorem collapse_ok (hc : TotalPreorder cmp) (size fuel : Nat) : ∀ (st : List Run) (o d rest : List α), Tiled cmp st o d → st.length < fuel →
    ∃ st' d', collapse cmp size fuel st (d ++ rest) = .ok (st', d' ++ rest) ∧ Tiled cmp st' o d' ∧ checkInvariant st' = true := by
  induction fuel with
  | zero => intro st o d rest _ h; omega
  | succ fuel ih =>
    intro st o d rest ht hf
    match st with
    | [] => exact ⟨[], d, rfl, ht, rfl⟩
    | [r] => exact ⟨[r], d, rfl, ht, rfl⟩
    | [b, a] =>
      rw [collapse]
      by_cases h : a.length + b.length = size ∨ a.length ≤ b.length
      · rw [if_pos h]
        obtain ⟨d', e1, e2⟩ := ht.merge2 hc rest
        rw [e1]
        exact ⟨_, d', rfl, e2, rfl⟩
      · rw [if_neg h]
        refine ⟨_, d, rfl, ht, ?_⟩
        simp [checkInvariant]; omega
    | c :: b :: a :: st =>
      rw [collapse]
      simp only [List.length_cons] at hf
      by_cases h1 : a.length ≤ b.length + c.length
      · rw [if_pos h1]
        by_cases h2 : a.length < c.length
        · rw [if_pos h2]
          obtain ⟨d', e1, e2⟩ := ht.merge3 hc rest
          rw [e1]
          exact ih _ o d' rest e2 (by simp; omega)
        · rw [if_neg h2]
          obtain ⟨d', e1, e2⟩ := ht.merge2 hc rest
          rw [e1]
          exact ih _ o d' rest e2 (by simp; omega)
      · rw [if_neg h1]
        by_cases h2 : b.length ≤ c.length
        · rw [if_pos h2]
          obtain ⟨d', e1, e2⟩ := ht.merge2 hc rest
          rw [e1]
          exact ih _ o d' rest e2 (by simp; omega)
        · rw [if_neg h2]
          refine ⟨_, d, rfl, ht, ?_⟩
          simp [checkInvariant]; omega

theorem finishUp_ok (hc : TotalPreorder cmp) (n : Nat) : ∀ (st : List Run) (o d : List α), st.length = n → Tiled cmp st o d →
    ∃ out, finishUp cmp st d = .ok out ∧ StableSort cmp o out := by
  induction n with
  | zero =>
    intro st o d hl ht
    have := List.length_eq_zero_iff.mp hl
    subst this
    cases ht
    exact ⟨[], by rw [finishUp]; simp, by simp [Sorted], .refl _⟩
  | succ n ih =>
    intro st o d hl ht
    match st with
    | [] => simp at hl
    | [r] =>
      cases ht with
      | @cons _ o1 d1 so sd h hs _ =>
        cases h
        exact ⟨sd, by rw [finishUp] <;> simp, by simpa using hs⟩
    | b :: a :: st =>
      obtain ⟨d', e1, e2⟩ := ht.merge2 hc []
      simp only [List.append_nil] at e1
      rw [finishUp, e1]
      exact ih _ o d' (by simp at hl ⊢; omega) e2

/-! ### runs -/

theorem chain_pairwise {R : α → α → Prop} (htr : ∀ a b c, R a b → R b c → R a c) (l : List α)
    (h : ∀ i x y, l[i]? = some x → l[i + 1]? = some y → R x y) : l.Pairwise R := by
  induction l with
  | nil => exact .nil
  | cons a l ih =>
    rw [List.pairwise_cons]
    have hl : l.Pairwise R := ih (fun i x y hx hy => h (i + 1) x y (by simpa using hx) (by simpa using hy))
    refine ⟨?_, hl⟩
    cases l with
    | nil => simp
    | cons b l =>
      have hab : R a b := h 0 a b (by simp) (by simp)
      intro x hx
      rcases List.mem_cons.mp hx with hx | hx
      · subst hx; exact hab
      · rw [List.pairwise_cons] at hl
        exact htr _ _ _ hab (hl.1 x hx)

theorem runEnd_ok (test : Int → Bool) (dst : List α) (size start : Nat) (hsz : size = dst.length) (fuel : Nat) : ∀ curr,
    0 < curr → curr < size → size - curr ≤ fuel →
    (∀ i x y, start ≤ i → i + 1 < curr → dst[i]? = some x → dst[i + 1]? = some y → test (cmp x y) = true) →
    ∃ e, runEnd cmp test dst size fuel curr = .ok e ∧ curr ≤ e ∧ e < size ∧
      (∀ i x y, start ≤ i → i + 1 < e → dst[i]? = some x → dst[i + 1]? = some y → test (cmp x y) = true) := by
  induction fuel with
  | zero => intro curr _ _ _; omega
  | succ fuel ih =>
    intro curr h0 hlt hf hpre
    rw [runEnd]
    by_cases h1 : curr + 1 < size
    · rw [if_pos h1]
      have ha : dst[curr - 1]? = some dst[curr - 1] := List.getElem?_eq_getElem (by omega)
      have hb : dst[curr]? = some dst[curr] := List.getElem?_eq_getElem (by omega)
      rw [rd_ok ha, rd_ok hb]
      simp only
      by_cases h2 : test (cmp dst[curr - 1] dst[curr]) = true
      · rw [if_pos h2]
        obtain ⟨e, g1, g2, g3, g4⟩ := ih (curr + 1) (by omega) (by omega) (by omega) (by
          intro i x y hs hi hx hy
          rcases Nat.lt_or_eq_of_le (Nat.lt_succ_iff.mp hi) with h | h
          · exact hpre i x y hs h hx hy
          · subst h
            have hi1 : i + 1 - 1 = i := by omega
            rw [hb] at hy
            simp only [hi1] at ha h2
            rw [ha] at hx
            cases hx; cases hy
            exact h2)
        exact ⟨e, g1, by omega, g3, g4⟩
      · rw [if_neg h2]
        exact ⟨curr, rfl, Nat.le_refl _, hlt, hpre⟩
    · rw [if_neg h1]
      exact ⟨curr, rfl, Nat.le_refl _, hlt, hpre⟩

theorem reverseElements_ok (fuel : Nat) : ∀ (P X S : List α), X.length ≤ fuel →
    reverseElements fuel (P.length : Int) ((P.length : Int) + X.length - 1) (P ++ (X ++ S)) = .ok (P ++ (X.reverse ++ S)) := by
  induction fuel with
  | zero =>
    intro P X S h
    have : X = [] := List.length_eq_zero_iff.mp (by omega)
    subst this
    rw [reverseElements, if_neg (by simp; omega)]; simp
  | succ fuel ih =>
    intro P X S h
    rw [reverseElements]
    by_cases h1 : (P.length : Int) < (P.length : Int) + X.length - 1
    · rw [if_pos h1, if_neg (by omega)]
      cases X with
      | nil => simp at h1; omega
      | cons a X' =>
        obtain ⟨M, b, hM⟩ := exists_snoc X' (by intro hh; rw [hh] at h1; simp at h1)
        subst hM
        have e1 : ((P.length : Int)).toNat = P.length := by omega
        have e2 : ((P.length : Int) + (a :: (M ++ [b])).length - 1).toNat = (P ++ (a :: M)).length := by simp; omega
        rw [e1, e2]
        have g1 : (P ++ (a :: (M ++ [b]) ++ S))[P.length]? = some a := get_at _ _ _ _ rfl
        have g2 : (P ++ (a :: (M ++ [b]) ++ S))[(P ++ (a :: M)).length]? = some b := by
          have : P ++ (a :: (M ++ [b]) ++ S) = (P ++ (a :: M)) ++ b :: S := by simp
          rw [this]; exact get_at _ _ _ _ rfl
        rw [rd_ok g1, rd_ok g2]
        simp only
        rw [wr_ok (by simp), List.cons_append, set_at _ _ _ _ _ rfl]
        simp only
        have e3 : P ++ b :: (M ++ [b] ++ S) = (P ++ (b :: M)) ++ b :: S := by simp
        rw [wr_ok (by simp), e3, set_at _ _ _ _ _ (by simp)]
        simp only
        have e4 : P ++ (b :: M) ++ a :: S = (P ++ [b]) ++ (M ++ (a :: S)) := by simp
        have e5 : (P.length : Int) + 1 = ((P ++ [b]).length : Int) := by simp
        have e6 : (P.length : Int) + (a :: (M ++ [b])).length - 1 - 1 = ((P ++ [b]).length : Int) + M.length - 1 := by simp; omega
        rw [e4, e5, e6, ih (P ++ [b]) M (a :: S) (by simp at h; omega)]
        simp
    · rw [if_neg h1]
      have : X.length ≤ 1 := by omega
      match X with
      | [] => simp
      | [x] => simp
      | _ :: _ :: _ => simp at this

theorem countRun_ok (hc : TotalPreorder cmp) (D T : List α) (hT : T ≠ []) :
    ∃ len T', countRun cmp (D ++ T) D.length (D ++ T).length = .ok (len, D ++ T') ∧ 1 ≤ len ∧ len ≤ T.length ∧
      T'.drop len = T.drop len ∧ StableSort cmp (T.take len) (T'.take len) := by
  unfold countRun
  match T with
  | [] => exact absurd rfl hT
  | [x] =>
    rw [if_pos (by simp)]
    exact ⟨1, [x], rfl, by simp, by simp, rfl, by simp [Sorted], .refl _⟩
  | [x, y] =>
    rw [if_neg (by simp), if_pos (by simp)]
    have e0 : (D ++ [x, y]).length - 2 = D.length := by simp
    have e0' : (D ++ [x, y]).length - 1 = (D ++ [x]).length := by simp
    have g1 : (D ++ [x, y])[D.length]? = some x := get_at _ _ _ _ rfl
    have g2 : (D ++ [x, y])[(D ++ [x]).length]? = some y := by
      have : D ++ [x, y] = (D ++ [x]) ++ y :: [] := by simp
      rw [this]; exact get_at _ _ _ _ rfl
    rw [e0, e0', rd_ok g1, rd_ok g2]
    simp only [Res.bind_ok]
    by_cases h : 0 < cmp x y
    · rw [if_pos h, wr_ok (by simp)]
      have : D ++ [x, y] = (D ++ [x]) ++ y :: [] := by simp
      rw [this, set_at _ _ _ _ _ rfl]
      simp only [Res.bind_ok]
      rw [wr_ok (by simp)]
      have e : D ++ [x] ++ [x] = D ++ x :: [x] := by simp
      rw [e, set_at _ _ _ _ _ rfl]
      simp only [Res.bind_ok]
      refine ⟨2, [y, x], rfl, by simp, by simp, rfl, ?_, ?_⟩
      · have := hc.le_of_gt h
        simp [Sorted]; omega
      · exact Stable.swap hc [x] [y] (by simp; omega)
    · rw [if_neg h]
      refine ⟨2, [x, y], rfl, by simp, by simp, rfl, ?_, .refl _⟩
      simp [Sorted]; omega
  | x :: y :: z :: T =>
    rw [if_neg (by simp), if_neg (by simp)]
    generalize hTT : x :: y :: z :: T = TT
    have hTl : 3 ≤ TT.length := by rw [← hTT]; simp
    have g1 : (D ++ TT)[D.length]? = some x := by rw [← hTT]; exact get_at _ _ _ _ rfl
    have g2 : (D ++ TT)[D.length + 1]? = some y := by
      have : D ++ TT = (D ++ [x]) ++ y :: (z :: T) := by rw [← hTT]; simp
      rw [this]; exact get_at _ _ _ _ (by simp)
    rw [rd_ok g1, rd_ok g2]
    simp only [Res.bind_ok]
    have hpair : ∀ (test : Int → Bool), test (cmp x y) = true →
        ∀ i u v, D.length ≤ i → i + 1 < D.length + 2 → (D ++ TT)[i]? = some u → (D ++ TT)[i + 1]? = some v → test (cmp u v) = true := by
      intro test ht i u v hi hi2 hu hv
      have : i = D.length := by omega
      subst this
      rw [g1] at hu; rw [g2] at hv
      cases hu; cases hv; exact ht
    have htake : ∀ (e i : Nat), i < e - D.length → (TT.take (e - D.length))[i]? = (D ++ TT)[D.length + i]? := by
      intro e i hi
      rw [List.getElem?_take, if_pos hi, List.getElem?_append_right (by omega)]
      congr 1; omega
    by_cases h : cmp x y ≤ 0
    · rw [if_pos h]
      obtain ⟨e, r1, r2, r3, r4⟩ := runEnd_ok (cmp := cmp) (fun v => decide (v ≤ 0)) (D ++ TT) (D ++ TT).length D.length rfl (D ++ TT).length
        (D.length + 2) (by omega) (by simp; omega) (by omega) (hpair (fun v => decide (v ≤ 0)) (by simpa using h))
      rw [r1]
      simp only [Res.bind_ok]
      have r3' : e < D.length + TT.length := by simpa using r3
      refine ⟨e - D.length, TT, rfl, by omega, by omega, rfl, ?_, .refl _⟩
      apply chain_pairwise hc.trans
      intro i u v hu hv
      have hi : i + 1 < e - D.length := by
        have := (List.getElem?_eq_some_iff.mp hv).1
        simp at this; omega
      rw [htake e i (by omega)] at hu
      rw [htake e (i + 1) hi] at hv
      have := r4 (D.length + i) u v (by omega) (by omega) hu hv
      simpa using this
    · rw [if_neg h]
      obtain ⟨e, r1, r2, r3, r4⟩ := runEnd_ok (cmp := cmp) (fun v => decide (0 < v)) (D ++ TT) (D ++ TT).length D.length rfl (D ++ TT).length
        (D.length + 2) (by omega) (by simp; omega) (by omega) (hpair (fun v => decide (0 < v)) (by simp; omega))
      rw [r1]
      simp only [Res.bind_ok]
      have r3' : e < D.length + TT.length := by simpa using r3
      generalize hX : TT.take (e - D.length) = X at *
      have hXl : X.length = e - D.length := by rw [← hX]; simp; omega
      have hTdec : TT = X ++ TT.drop (e - D.length) := by rw [← hX, List.take_append_drop]
      have hrev := reverseElements_ok (D ++ TT).length D X (TT.drop (e - D.length)) (by simp; omega)
      rw [← hTdec, hXl] at hrev
      have ee : (D.length : Int) + ((e - D.length : Nat) : Int) - 1 = (e : Int) - 1 := by omega
      rw [ee] at hrev
      rw [hrev]
      simp only [Res.bind_ok]
      refine ⟨e - D.length, X.reverse ++ TT.drop (e - D.length), rfl, by omega, by omega, ?_, ?_⟩
      · have : e - D.length = X.reverse.length := by simp [hXl]
        rw [this, List.drop_left]
      · have : (X.reverse ++ TT.drop (e - D.length)).take (e - D.length) = X.reverse := by
          have : e - D.length = X.reverse.length := by simp [hXl]
          rw [this, List.take_left]
        rw [this]
        have hpw : X.Pairwise (fun a b => 0 < cmp a b) := by
          apply chain_pairwise
          · intro a b c h1 h2
            exact hc.gt_of_lt (hc.lt_of_lt_of_le (hc.le_of_gt h2) (by have := hc.le_of_gt h1; omega))
          · intro i u v hu hv
            have hi : i + 1 < e - D.length := by
              have := (List.getElem?_eq_some_iff.mp hv).1
              omega
            rw [← hX, htake e i (by omega)] at hu
            rw [← hX, htake e (i + 1) hi] at hv
            have := r4 (D.length + i) u v (by omega) (by omega) hu hv
            simpa using this
        refine ⟨?_, ?_⟩
        · unfold Sorted
          rw [List.pairwise_reverse]
          exact hpw.imp (fun h => by have := hc.le_of_gt h; omega)
        · rw [hX]
          clear hrev hXl hX htake hTdec this
          induction X with
          | nil => exact .refl _
          | cons a X ih =>
            rw [List.pairwise_cons] at hpw
            rw [List.reverse_cons]
            have s1 : Stable cmp ([a] ++ X) (X ++ [a]) := Stable.swap hc [a] X (by
              intro p hp q hq
              simp at hp; subst hp
              have := hpw.1 q hq; omega)
            exact s1.trans ((ih hpw.2).append (.refl _))

theorem pushRun_ok (hc : TotalPreorder cmp) (minrun : Nat) (st : List Run) (o d T : List α) (ht : Tiled cmp st o d) (hT : T ≠ []) :
    (STACK_MAX ≤ st.length ∧ pushRun cmp (d ++ T).length minrun ⟨st, d.length, d ++ T⟩ = .err STACK_OVERFLOW) ∨
    ∃ st' o' d' T', pushRun cmp (d ++ T).length minrun ⟨st, d.length, d ++ T⟩ = .ok ⟨st', d'.length, d' ++ T'⟩ ∧ Tiled cmp st' o' d' ∧
      o ++ T = o' ++ T' ∧ T'.length < T.length ∧ ∃ L, st' = ⟨d.length, L⟩ :: st ∧ (minrun ≤ L ∨ T' = []) := by
  obtain ⟨len, T1, h1, h2, h3, h4, h5⟩ := countRun_ok hc d T hT
  unfold pushRun
  simp only
  rw [h1]
  simp only [Res.bind_ok]
  have hsub : (d ++ T).length - d.length = T.length := by simp
  rw [hsub]
  generalize hrun : (if T.length < minrun then T.length else minrun) = run
  have hrle : run ≤ T.length := by rw [← hrun]; split <;> omega
  have hT1l : T1.length = T.length := by
    have a1 := h5.stable.length
    have a2 := congrArg List.length h4
    simp at a1 a2; omega
  -- the segment after extension
  have key : ∃ L T2, extendRun cmp (d ++ T1) d.length len run = .ok (d ++ T2) ∧ L = (if len < run then run else len) ∧ L ≤ T.length ∧ 1 ≤ L ∧
      T2.drop L = T.drop L ∧ StableSort cmp (T.take L) (T2.take L) := by
    unfold extendRun
    by_cases hlr : len < run
    · rw [if_pos hlr, if_pos hlr, List.drop_left, List.take_left]
      obtain ⟨T2, g1, g2, g3⟩ := bisort_ok hc (run - len) len T1 (by omega) (by omega) h5.sorted
      have e : len + (run - len) = run := by omega
      rw [e] at g2 g3
      rw [g1]
      refine ⟨run, T2, rfl, rfl, hrle, by omega, ?_, g3.sorted, ?_⟩
      · rw [g2]
        have := congrArg (List.drop (run - len)) h4
        rw [List.drop_drop, List.drop_drop, e] at this
        exact this
      · apply Stable.trans _ g3.stable
        have t1 : T.take run = T.take len ++ (T.drop len).take (run - len) := by rw [← List.take_add, e]
        have t2 : T1.take run = T1.take len ++ (T1.drop len).take (run - len) := by rw [← List.take_add, e]
        rw [t1, t2, h4]
        exact h5.stable.append (.refl _)
    · rw [if_neg hlr, if_neg hlr]
      exact ⟨len, T1, rfl, rfl, h3, h2, h4, h5⟩
  obtain ⟨L, T2, k1, k2, k3, k4, k5, k6⟩ := key
  rw [k1]
  simp only [Res.bind_ok]
  rw [← k2]
  by_cases hstk : STACK_MAX ≤ st.length
  · rw [if_pos hstk]; exact .inl ⟨hstk, rfl⟩
  · rw [if_neg hstk]
    right
    have hl2 : (T2.take L).length = L := by rw [k6.stable.length]; simp; omega
    refine ⟨⟨d.length, L⟩ :: st, o ++ T.take L, d ++ T2.take L, T2.drop L, ?_, ?_, ?_, ?_, L, rfl, ?_⟩
    · rw [List.append_assoc, List.take_append_drop]
      simp [hl2]
    · have := Tiled.cons ht k6 (by intro h; rw [h] at hl2; simp at hl2; omega)
      rw [hl2] at this
      exact this
    · rw [k5, List.append_assoc, List.take_append_drop]
    · rw [k5]; simp; omega
    · by_cases hTm : T.length < minrun
      · rw [if_pos hTm] at hrun
        right
        have hLT : L = T.length := by
          rw [k2]; split <;> omega
        apply List.drop_eq_nil_of_le
        have := congrArg List.length k5
        simp at this
        omega
      · rw [if_neg hTm] at hrun
        left
        rw [k2]; split <;> omega

theorem sortLoop_ok (hc : TotalPreorder cmp) (minrun : Nat) (orig : List α) (fuel : Nat) : ∀ (k : Nat) (st : List Run) (o d T : List α),
    Tiled cmp st o d → orig = o ++ T → T ≠ [] → 2 * T.length + (if checkInvariant st then 0 else 1) < fuel →
    sortLoop cmp orig.length minrun fuel k ⟨st, d.length, d ++ T⟩ = .err STACK_OVERFLOW ∨
    ∃ out, sortLoop cmp orig.length minrun fuel k ⟨st, d.length, d ++ T⟩ = .ok out ∧ StableSort cmp orig out := by
  induction fuel with
  | zero => intro k st o d T _ _ _ h; omega
  | succ fuel ih =>
    intro k st o d T ht ho hT hf
    rw [sortLoop]
    have hlen : orig.length = (d ++ T).length := by rw [ho]; simp [ht.length]
    by_cases h1 : k = 0 ∧ (!checkInvariant st) = true
    · rw [if_pos h1]
      obtain ⟨st', d', e1, e2, e3⟩ := collapse_ok hc orig.length (st.length + 1) st o d T ht (by omega)
      rw [e1]
      simp only
      have hl : d.length = d'.length := by rw [ht.length, e2.length]
      rw [hl]
      apply ih 0 st' o d' T e2 ho hT
      rw [e3]
      have : checkInvariant st = false := by simpa using h1.2
      rw [this] at hf
      simp at hf ⊢; omega
    · rw [if_neg h1]
      have hp := pushRun_ok hc minrun st o d T ht hT
      rw [← hlen] at hp
      rcases hp with ⟨_, hp⟩ | ⟨st', o', d', T', p1, p2, p3, p4, p5⟩
      · rw [hp]; exact .inl rfl
      · rw [p1]
        simp only
        by_cases hfin : d'.length = orig.length
        · rw [if_pos hfin]
          have hT' : T' = [] := by
            apply List.length_eq_zero_iff.mp
            have := congrArg List.length p3
            rw [← ho] at this
            simp [← p2.length] at this; omega
          subst hT'
          right
          obtain ⟨out, f1, f2⟩ := finishUp_ok hc _ st' o' d' rfl p2
          refine ⟨out, by simpa using f1, ?_⟩
          rw [ho, p3]; simpa using f2
        · rw [if_neg hfin]
          apply ih (k - 1) st' o' d' T' p2 (by rw [ho, p3])
          · intro h
            subst h
            have := congrArg List.length p3
            rw [← ho] at this
            simp [← p2.length] at this; omega
          · split <;> split at hf <;> omega

end Verif.Sort
