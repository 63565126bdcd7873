import Verif.TreeDiff.Lemmas1
/-! # The list of paths -/
namespace Verif.TreeDiff
open Spec B

/-- a path of the list lets an item through -/
def MatchP (q p : Bytes) : Prop := Asks q p ∨ (p.getLast? = some c!"/" ∧ p <+: q)

theorem bareLen_le (a : Bytes) : bareLen a ≤ a.length := by unfold bareLen; split <;> omega

theorem le_bareLen (a : Bytes) : a.length ≤ bareLen a + 1 := by unfold bareLen; split <;> omega

theorem bareLen_slash (a : Bytes) : bareLen (a ++ b!"/") = a.length := by simp [bareLen]

theorem bareLen_not {a : Bytes} (h : a.getLast? ≠ some c!"/") : bareLen a = a.length := by simp [bareLen, h]

theorem slash_split {a : Bytes} (h : a.getLast? = some c!"/") : ∃ A, a = A ++ b!"/" := by
  rcases List.eq_nil_or_concat a with rfl | ⟨A, c, rfl⟩
  · simp at h
  · simp at h
    exact ⟨A, by simp [h]⟩

/-- the test in the loop -/
def hit (q a : Bytes) : Prop :=
  let n := min (bareLen a) (bareLen q)
  bcmp (q.take n) (a.take n) = 0 ∧ ((q.getD n 0 = 0 ∧ (a.getD n 0 = 0 ∨ a.getD n 0 = c!"/")) ∨ (q.getD n 0 = c!"/" ∧ a.getD n 0 = c!"/"))

theorem getD_append_len (P r : Bytes) : (P ++ r).getD P.length 0 = r.getD 0 0 := by
  simp [List.getD, List.getElem?_append_right]

theorem head_zero {r : Bytes} (h : (0 : UInt8) ∉ r) : r.getD 0 0 = 0 ↔ r = [] := by
  cases r with
  | nil => simp
  | cons c t =>
    simp only [List.getD_cons_zero]
    constructor
    · intro h'; exact absurd (by rw [h']; simp) h
    · intro h'; cases h'

theorem head_slash {r : Bytes} : r.getD 0 0 = c!"/" ↔ b!"/" <+: r := by
  cases r with
  | nil => simp
  | cons c t => simp [List.cons_prefix_cons, eq_comm]

theorem hit_iff {q a : Bytes} (hq : (0 : UInt8) ∉ q) (ha : (0 : UInt8) ∉ a) : hit q a ↔ MatchP q a := by
  have key : ∀ {P q' a' : Bytes}, (0 : UInt8) ∉ q' → (0 : UInt8) ∉ a' → min (bareLen (P ++ a')) (bareLen (P ++ q')) = P.length →
      (hit (P ++ q') (P ++ a') ↔ (q' = [] ∧ (a' = [] ∨ b!"/" <+: a')) ∨ (b!"/" <+: q' ∧ b!"/" <+: a')) := by
    intro P q' a' h1 h2 hn
    unfold hit
    simp only [hn, List.take_left, bcmp_self, getD_append_len, head_zero h1, head_zero h2, head_slash, true_and]
  constructor
  · intro h
    have hbc := bcmp_zero.mp h.1
    generalize hn : min (bareLen a) (bareLen q) = n at *
    have hna : n ≤ a.length := by have := bareLen_le a; omega
    have hnq : n ≤ q.length := by have := bareLen_le q; omega
    have ea : a = q.take n ++ a.drop n := by rw [hbc]; simp
    have eq' : q = q.take n ++ q.drop n := by simp
    have hP : (q.take n).length = n := by simp [hnq]
    generalize hPe : q.take n = P at *
    generalize hA : a.drop n = a' at *
    generalize hQ : q.drop n = q' at *
    subst ea
    subst eq'
    have h1 : (0 : UInt8) ∉ q' := fun h => hq (List.mem_append_right _ h)
    have h2 : (0 : UInt8) ∉ a' := fun h => ha (List.mem_append_right _ h)
    rcases (key h1 h2 (by rw [hn, hP])).mp h with ⟨rfl, h'⟩ | ⟨⟨u, rfl⟩, ⟨v, rfl⟩⟩
    · left
      rw [List.append_nil] at *
      have : P.getLast? ≠ some c!"/" := by
        intro hs
        obtain ⟨A, rfl⟩ := slash_split hs
        rw [bareLen_slash] at hn
        simp at hP
        omega
      unfold Asks
      rw [if_neg this]
      rcases h' with rfl | ⟨t, rfl⟩
      · left; simp
      · right; exact ⟨t, by simp⟩
    · rcases Nat.le_total (bareLen (P ++ (b!"/" ++ u))) (bareLen (P ++ (b!"/" ++ v))) with hle | hle
      · left
        rw [Nat.min_eq_right hle] at hn
        have h3 := le_bareLen (P ++ (b!"/" ++ u))
        simp only [List.length_append, List.length_cons, List.length_nil] at h3
        have : u = [] := by cases u with
          | nil => rfl
          | cons c t => simp only [List.length_cons] at h3; omega
        subst this
        unfold Asks
        rw [List.append_nil, if_pos (by simp)]
        exact ⟨v, by simp⟩
      · right
        rw [Nat.min_eq_left hle] at hn
        have h3 := le_bareLen (P ++ (b!"/" ++ v))
        simp only [List.length_append, List.length_cons, List.length_nil] at h3
        have : v = [] := by cases v with
          | nil => rfl
          | cons c t => simp only [List.length_cons] at h3; omega
        subst this
        exact ⟨by simp, ⟨u, by simp⟩⟩
  · rintro (h | ⟨h1, h2⟩)
    · unfold Asks at h
      split at h
      · rename_i hs
        obtain ⟨Q, rfl⟩ := slash_split hs
        obtain ⟨t, rfl⟩ := h
        have hb := le_bareLen (Q ++ b!"/" ++ t)
        rw [List.append_assoc] at *
        refine (key (P := Q) (by simp) (fun h => ha (List.mem_append_right _ h)) ?_).mpr (Or.inr ⟨List.prefix_rfl, ⟨t, rfl⟩⟩)
        rw [bareLen_slash]
        simp only [List.length_append, List.length_cons, List.length_nil] at hb
        omega
      · rename_i hs
        have hbq := bareLen_not hs
        rcases h with rfl | ⟨t, rfl⟩
        · have := (key (P := a) (q' := []) (a' := []) (by simp) (by simp) (by simp [hbq])).mpr (Or.inl ⟨rfl, Or.inl rfl⟩)
          simpa using this
        · have hb := le_bareLen (q ++ b!"/" ++ t)
          rw [List.append_assoc] at *
          have := (key (P := q) (q' := []) (a' := b!"/" ++ t) (by simp) (fun h => ha (List.mem_append_right _ h)) ?_).mpr (Or.inl ⟨rfl, Or.inr ⟨t, rfl⟩⟩)
          · simpa using this
          · rw [List.append_nil, hbq]
            simp only [List.length_append, List.length_cons, List.length_nil] at hb
            omega
    · obtain ⟨A, rfl⟩ := slash_split h1
      obtain ⟨t, rfl⟩ := h2
      have hb := le_bareLen (A ++ b!"/" ++ t)
      rw [List.append_assoc] at *
      refine (key (P := A) (fun h => hq (List.mem_append_right _ h)) (by simp) ?_).mpr (Or.inr ⟨⟨t, rfl⟩, List.prefix_rfl⟩)
      rw [bareLen_slash]
      simp only [List.length_append, List.length_cons, List.length_nil] at hb
      omega

theorem asks_prefix {q p : Bytes} (h : Asks q p) : q <+: p := by
  unfold Asks at h
  split at h
  · exact h
  · rcases h with rfl | ⟨t, rfl⟩
    · exact List.prefix_rfl
    · exact ⟨b!"/" ++ t, by simp⟩

theorem matchP_prefix {q p : Bytes} (h : MatchP q p) : q <+: p ∨ p <+: q := by
  rcases h with h | h
  · exact Or.inl (asks_prefix h)
  · exact Or.inr h.2

/-- what a path of the list lets through is in directories that it lets through -/
theorem matchP_up {q p d : Bytes} (h : MatchP q p) (hd : d.getLast? = some c!"/") (hp : d <+: p) : MatchP q d := by
  rcases h with h | ⟨_, h⟩
  · unfold Asks at h
    split at h
    · rename_i hs
      rcases List.prefix_or_prefix_of_prefix h hp with h' | h'
      · left; unfold Asks; rw [if_pos hs]; exact h'
      · exact Or.inr ⟨hd, h'⟩
    · rename_i hs
      rcases h with rfl | h
      · exact Or.inr ⟨hd, hp⟩
      · rcases List.prefix_or_prefix_of_prefix h hp with h' | h'
        · left; unfold Asks; rw [if_neg hs]; exact Or.inr h'
        · rcases List.prefix_concat_iff.mp h' with rfl | h'
          · left; unfold Asks; rw [if_neg hs]; exact Or.inr List.prefix_rfl
          · exact Or.inr ⟨hd, h'⟩
  · exact Or.inr ⟨hd, hp.trans h⟩

theorem listed_up {l : List Bytes} {p d : Bytes} (h : Listed l p) (hd : d.getLast? = some c!"/") (hp : d <+: p) : Listed l d := by
  rcases h with h | ⟨q, hq, h⟩
  · exact Or.inl h
  · exact Or.inr ⟨q, hq, matchP_up h hd hp⟩

theorem take_le {a b : Bytes} (h : a ≤ b) (n : Nat) : a.take n ≤ b.take n := bcmp_le.mp (bcmp_take n (bcmp_le.mpr h))

/-- it is before all paths of the list from here on -/
theorem not_match_before {q a q' : Bytes} {n : Nat} (hn : n ≤ a.length) (hlt : a.take n < q.take n) (hle : q ≤ q') : ¬ MatchP q' a := by
  intro hm
  have h1 := take_le hle n
  rcases matchP_prefix hm with h | h
  · have h2 := prefix_le h
    have := lt_of_lt_of_le hlt (le_trans h1 (take_le h2 n))
    exact lt_irrefl this
  · obtain ⟨t, rfl⟩ := h
    rw [List.take_append_of_le_length hn] at h1
    exact lt_irrefl (lt_of_lt_of_le hlt h1)

/-- a path of the list that later items need not be compared with -/
def Dead (q a : Bytes) : Prop := ∀ a', a ≤ a' → a' ≠ [] → a'.head? ≠ some c!"/" → ¬ MatchP q a'

theorem dead_before {q a : Bytes} {n : Nat} (hn : n ≤ q.length) (hlt : q.take n < a.take n) : Dead q a := by
  intro a' hle _ _ hm
  have h1 := take_le hle n
  rcases matchP_prefix hm with h | h
  · obtain ⟨t, rfl⟩ := h
    rw [List.take_append_of_le_length hn] at h1
    exact lt_irrefl (lt_of_lt_of_le hlt h1)
  · exact lt_irrefl (lt_of_lt_of_le hlt (le_trans h1 (take_le (prefix_le h) n)))

theorem slash_le {q t : Bytes} {c : UInt8} (h : c!"/" ≤ c) : q ++ b!"/" ≤ q ++ c :: t := by
  refine append_le_append_left q (bcmp_le.mp ?_)
  simp only [bcmp]
  rw [UInt8.le_iff_toNat_le] at h
  split
  · omega
  · split
    · rename_i h1 h2
      rw [UInt8.lt_iff_toNat_lt] at h2
      omega
    · cases t <;> simp [bcmp]

/-- A path of the list that is passed over without a match while a later one is found to be before the item: nothing that it lets through comes any more, unless there is a clash. -/
theorem dead_passed {q r a : Bytes} (hqr : q ≤ r) (hcmp : let n := min (bareLen a) (bareLen q); q.take n = a.take n) (hnm : ¬ MatchP q a)
    (hlt : let n := min (bareLen a) (bareLen r); r.take n < a.take n)
    (hclash : q ≠ [] → q.getLast? ≠ some c!"/" → ∀ c t, r = q ++ c :: t → c!"/" ≤ c) : Dead q a := by
  simp only at hcmp hlt
  generalize hn : min (bareLen a) (bareLen q) = n at *
  generalize hm : min (bareLen a) (bareLen r) = m at *
  have hma : m ≤ bareLen a := by omega
  have hra : r < a := by
    refine not_le.mp fun h => ?_
    exact lt_irrefl (lt_of_lt_of_le hlt (take_le h m))
  -- the item is not what the path begins with
  have hlen : bareLen q < bareLen a ∨ bareLen q = bareLen a := by
    rcases Nat.lt_or_ge (bareLen a) (bareLen q) with h | h
    · exfalso
      rw [Nat.min_eq_left (by omega)] at hn
      have h1 : q.take m = a.take m := by
        have := congrArg (List.take m) hcmp
        rwa [List.take_take, List.take_take, Nat.min_eq_left (by omega)] at this
      have := take_le hqr m
      rw [h1] at this
      exact lt_irrefl (lt_of_lt_of_le hlt this)
    · omega
  rw [Nat.min_eq_right (by omega)] at hn
  -- what all of `q` but a slash is
  by_cases hs : q.getLast? = some c!"/"
  · have hqa : ¬ q <+: a := by
      intro h; exact hnm (Or.inl (by unfold Asks; rw [if_pos hs]; exact h))
    have hle : q ≤ a := le_of_lt (lt_of_le_of_lt hqr hra)
    intro a' haa' _ _ hm'
    rcases hm' with h | ⟨_, h⟩
    · unfold Asks at h
      rw [if_pos hs] at h
      exact hqa (convex' hle haa' h)
    · exact lt_irrefl (lt_of_le_of_lt (le_trans haa' (prefix_le h)) (lt_of_le_of_lt hqr hra))
  · by_cases hq0 : q = []
    · subst hq0
      intro a' _ hne hns hm'
      rcases hm' with h | ⟨_, h⟩
      · unfold Asks at h
        rw [if_neg hs] at h
        rcases h with h | ⟨t, h⟩
        · exact hne h
        · rw [← h] at hns; simp at hns
      · exact hne (List.prefix_nil.mp h)
    · have hbq := bareLen_not hs
      have hqp : q <+: a := by
        rw [hbq] at hn
        subst hn
        rw [List.take_length] at hcmp
        rw [hcmp]
        exact List.take_prefix _ _
      obtain ⟨t, ht⟩ := convex' hqr (le_of_lt hra) hqp
      cases t with
      | nil =>
        exfalso
        rw [List.append_nil] at ht
        subst ht
        rw [← hm, hbq] at hlt
        rw [hbq] at hn
        have : min (bareLen a) q.length = q.length := by omega
        rw [this, hn, hcmp] at hlt
        exact lt_irrefl hlt
      | cons c t =>
        have hc := hclash hq0 hs c t ht.symm
        have hle : q ++ b!"/" ≤ a := by
          refine le_trans (slash_le hc (t := t)) ?_
          rw [ht]
          exact le_of_lt hra
        have hqa : ¬ (q ++ b!"/") <+: a := by
          intro h; exact hnm (Or.inl (by unfold Asks; rw [if_neg hs]; exact Or.inr h))
        intro a' haa' _ _ hm'
        rcases hm' with h | ⟨_, h⟩
        · unfold Asks at h
          rw [if_neg hs] at h
          rcases h with rfl | h
          · exact lt_irrefl (lt_of_le_of_lt haa' (lt_of_le_of_lt hqr hra))
          · exact hqa (convex' hle haa' h)
        · exact lt_irrefl (lt_of_le_of_lt (le_trans haa' (prefix_le h)) (lt_of_le_of_lt hqr hra))

/-- a path that the loop has gone past -/
def Passed (q a : Bytes) : Prop := (let n := min (bareLen a) (bareLen q); q.take n = a.take n ∧ ¬ MatchP q a) ∨ Dead q a

theorem passed_not {q a : Bytes} (h : Passed q a) (h1 : a ≠ []) (h2 : a.head? ≠ some c!"/") : ¬ MatchP q a := by
  rcases h with h | h
  · exact h.2
  · exact h a le_rfl h1 h2

theorem pathlistLoop_spec {a : Bytes} (ha0 : (0 : UInt8) ∉ a) (h1 : a ≠ []) (h2 : a.head? ≠ some c!"/") :
    ∀ (ps mid : List Bytes) (walk : Nat), (mid ++ ps).Pairwise (· ≤ ·) → (∀ q ∈ mid ++ ps, (0 : UInt8) ∉ q) → NoClash (mid ++ ps) → (∀ q ∈ mid, Passed q a) →
      ∃ b k, pathlistLoop a ps walk = (b, walk + k) ∧ (b = true ↔ ∃ q ∈ mid ++ ps, MatchP q a) ∧ (∀ q ∈ (mid ++ ps).take k, Dead q a) := by
  intro ps
  induction ps with
  | nil =>
    intro mid walk _ _ _ hp
    refine ⟨false, 0, rfl, ?_, by simp⟩
    constructor
    · intro h; cases h
    · rintro ⟨q, hq, hm⟩
      rw [List.append_nil] at hq
      exact absurd hm (passed_not (hp q hq) h1 h2)
  | cons p ps ih =>
    intro mid walk hs h0 hnc hp
    have hmem : p ∈ mid ++ p :: ps := by simp
    have hp0 := h0 p hmem
    have hiff := hit_iff hp0 ha0
    unfold hit at hiff
    simp only at hiff
    unfold pathlistLoop
    simp only
    have e : mid ++ p :: ps = (mid ++ [p]) ++ ps := by simp
    by_cases hc0 : bcmp (p.take (min (bareLen a) (bareLen p))) (a.take (min (bareLen a) (bareLen p))) = 0
    · rw [if_pos hc0]
      by_cases hh1 : p.getD (min (bareLen a) (bareLen p)) 0 = 0 ∧ (a.getD (min (bareLen a) (bareLen p)) 0 = 0 ∨ a.getD (min (bareLen a) (bareLen p)) 0 = c!"/")
      · rw [if_pos hh1]
        exact ⟨true, 0, rfl, by simpa using ⟨p, Or.inr (Or.inl rfl), hiff.mp ⟨hc0, Or.inl hh1⟩⟩, by simp⟩
      · rw [if_neg hh1]
        by_cases hh2 : p.getD (min (bareLen a) (bareLen p)) 0 = c!"/" ∧ a.getD (min (bareLen a) (bareLen p)) 0 = c!"/"
        · rw [if_pos hh2]
          exact ⟨true, 0, rfl, by simpa using ⟨p, Or.inr (Or.inl rfl), hiff.mp ⟨hc0, Or.inr hh2⟩⟩, by simp⟩
        · rw [if_neg hh2]
          have hnm : ¬ MatchP p a := by
            intro hm
            rcases (hiff.mpr hm).2 with h | h
            · exact hh1 h
            · exact hh2 h
          rw [e] at hs h0 hnc ⊢
          exact ih (mid ++ [p]) walk hs h0 hnc (by
            intro q hq
            rcases List.mem_append.mp hq with hq | hq
            · exact hp q hq
            · rw [List.mem_singleton] at hq
              subst hq
              exact Or.inl ⟨bcmp_zero.mp hc0, hnm⟩)
    · rw [if_neg hc0]
      by_cases hlt : bcmp (p.take (min (bareLen a) (bareLen p))) (a.take (min (bareLen a) (bareLen p))) < 0
      · rw [if_pos hlt]
        have hlt' := bcmp_lt.mp hlt
        have hdp : Dead p a := dead_before (n := min (bareLen a) (bareLen p)) (by have := bareLen_le p; omega) hlt'
        cases mid with
        | nil =>
          have hs' : ([] ++ ps : List Bytes).Pairwise (· ≤ ·) := (List.pairwise_cons.mp hs).2
          obtain ⟨b, k, hr, hb, hk⟩ := ih [] (walk + 1) hs' (fun q hq => h0 q (List.mem_cons_of_mem _ hq))
            (fun q hq a1 a2 r hr => hnc q (List.mem_cons_of_mem _ hq) a1 a2 r (List.mem_cons_of_mem _ hr)) (by simp)
          refine ⟨b, k + 1, by rw [hr]; congr 1; omega, ?_, ?_⟩
          · rw [hb]
            constructor
            · rintro ⟨q, hq, hm⟩; exact ⟨q, List.mem_cons_of_mem _ hq, hm⟩
            · rintro ⟨q, hq, hm⟩
              rcases List.mem_cons.mp hq with rfl | hq
              · exact absurd hm (hdp a le_rfl h1 h2)
              · exact ⟨q, hq, hm⟩
          · intro q hq
            rw [List.nil_append, List.take_succ_cons] at hq
            rcases List.mem_cons.mp hq with rfl | hq
            · exact hdp
            · exact hk q hq
        | cons m mid =>
          have hdm : Dead m a := by
            rcases hp m List.mem_cons_self with ⟨hc, hnm⟩ | hd
            · exact dead_passed ((List.pairwise_cons.mp hs).1 p (by simp)) hc hnm hlt' (fun a1 a2 c t hr => hnc m List.mem_cons_self a1 a2 p hmem c t hr)
            · exact hd
          have e' : mid ++ p :: ps = (mid ++ [p]) ++ ps := by simp
          have hs' : ((mid ++ [p]) ++ ps).Pairwise (· ≤ ·) := by rw [← e']; exact (List.pairwise_cons.mp hs).2
          obtain ⟨b, k, hr, hb, hk⟩ := ih (mid ++ [p]) (walk + 1) hs' (fun q hq => h0 q (by rw [List.cons_append, e']; exact List.mem_cons_of_mem _ hq))
            (fun q hq a1 a2 r hr => hnc q (by rw [List.cons_append, e']; exact List.mem_cons_of_mem _ hq) a1 a2 r (by rw [List.cons_append, e']; exact List.mem_cons_of_mem _ hr))
            (by
              intro q hq
              rcases List.mem_append.mp hq with hq | hq
              · exact hp q (List.mem_cons_of_mem _ hq)
              · rw [List.mem_singleton] at hq
                subst hq
                exact Or.inr hdp)
          refine ⟨b, k + 1, by rw [hr]; congr 1; omega, ?_, ?_⟩
          · rw [hb, ← e']
            constructor
            · rintro ⟨q, hq, hm⟩; exact ⟨q, List.mem_cons_of_mem _ hq, hm⟩
            · rintro ⟨q, hq, hm⟩
              rcases List.mem_cons.mp hq with rfl | hq
              · exact absurd hm (hdm a le_rfl h1 h2)
              · exact ⟨q, hq, hm⟩
          · intro q hq
            rw [List.cons_append, List.take_succ_cons, e'] at hq
            rcases List.mem_cons.mp hq with rfl | hq
            · exact hdm
            · exact hk q hq
      · rw [if_neg hlt]
        have hgt : a.take (min (bareLen a) (bareLen p)) < p.take (min (bareLen a) (bareLen p)) := by
          refine lt_of_le_of_ne (bcmp_le.mp ?_) ?_
          · rw [bcmp_neg]; omega
          · intro h; exact hc0 (by rw [h]; exact bcmp_self _)
        refine ⟨false, 0, rfl, ?_, by simp⟩
        constructor
        · intro h; cases h
        · rintro ⟨q, hq, hm⟩
          have hna : min (bareLen a) (bareLen p) ≤ a.length := by have := bareLen_le a; omega
          rcases List.mem_append.mp hq with hq | hq
          · exact absurd hm (passed_not (hp q hq) h1 h2)
          · rcases List.mem_cons.mp hq with rfl | hq
            · exact absurd hm (not_match_before hna hgt le_rfl)
            · have := (List.pairwise_cons.mp (List.pairwise_append.mp hs).2.1).1 q hq
              exact absurd hm (not_match_before hna hgt this)

end Verif.TreeDiff
