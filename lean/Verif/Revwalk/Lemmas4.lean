import Verif.Revwalk.Lemmas3
import Verif.PQueue.Perm
import Verif.PQueue.Props
/-! # Sorting -/
namespace Verif.Revwalk
open Graph (Repo Reaches Proper Closed Acyclic timeCmp)
open PQueue (PQ)

theorem pop_any (q : PQ Nat) : (PQueue.pop q).2.cmp = q.cmp ∧ (PQueue.pop q).2.cap = q.cap ∧
    ((q.contents = [] ∧ (PQueue.pop q).1 = none) ∨ ∃ m, (PQueue.pop q).1 = some m ∧ q.contents.Perm (m :: (PQueue.pop q).2.contents)) := by
  cases hc : q.cmp with
  | some cmp =>
    obtain ⟨h1, h2, h3⟩ := PQueue.pop_perm hc
    refine ⟨h1, h2, ?_⟩
    rcases h3 with ⟨a, b, _⟩ | h
    · exact .inl ⟨a, b⟩
    · exact .inr h
  | none =>
    have e : PQueue.pop q = (q.contents.getLast?, { q with contents := q.contents.dropLast }) := by unfold PQueue.pop; rw [hc]
    rw [e]
    refine ⟨hc, rfl, ?_⟩
    simp only
    cases hl : q.contents with
    | nil => exact .inl ⟨rfl, rfl⟩
    | cons a l =>
      right
      refine ⟨(a :: l).getLast (by simp), List.getLast?_eq_some_getLast _, ?_⟩
      have := List.dropLast_concat_getLast (l := a :: l) (by simp)
      conv => lhs; rw [← this]
      exact List.perm_append_singleton _ _

theorem insert_any {q : PQ Nat} (hcap : q.cap = none) (x : Nat) : ∃ q', PQueue.insert q x = some q' ∧ q'.cmp = q.cmp ∧ q'.cap = none ∧ q'.contents.Perm (x :: q.contents) := by
  cases hc : q.cmp with
  | some cmp =>
    obtain ⟨q', h1, h2, h3, h4⟩ := PQueue.insert_perm hc hcap x
    exact ⟨q', h1, h2, h3, h4⟩
  | none =>
    refine ⟨{ q with contents := q.contents ++ [x] }, ?_, hc, hcap, List.perm_append_singleton _ _⟩
    unfold PQueue.insert
    simp only [hcap, hc]

theorem timeCmp_le {g : Repo} {a b : Nat} : timeCmp g a b ≤ 0 ↔ g.time b ≤ g.time a := by
  unfold timeCmp
  by_cases h1 : g.time a < g.time b
  · rw [if_pos h1]; omega
  · rw [if_neg h1]
    by_cases h2 : g.time a > g.time b
    · rw [if_pos h2]; omega
    · rw [if_neg h2]; omega

theorem timeCmp_pre (g : Repo) : PQueue.Spec.Preorder (timeCmp g) := ⟨fun a b => by rw [timeCmp_le, timeCmp_le]; omega, fun a b c => by rw [timeCmp_le, timeCmp_le, timeCmp_le]; omega⟩

/-- a queue ordered by date is a heap -/
def Ordered (g : Repo) (q : PQ Nat) : Prop := q.cmp = some (timeCmp g) → PQueue.Heap (timeCmp g) q.contents

theorem pop_ordered {g : Repo} {q : PQ Nat} (h : Ordered g q) : Ordered g (PQueue.pop q).2 ∧
    (q.cmp = some (timeCmp g) → ∀ m, (PQueue.pop q).1 = some m → ∀ x ∈ (PQueue.pop q).2.contents, g.time x ≤ g.time m) := by
  constructor
  · intro hc
    rw [(pop_any q).1] at hc
    exact (PQueue.pop_cases (timeCmp_pre g) hc (h hc)).2.2.1
  · intro hc m hm x hx
    rcases (PQueue.pop_cases (timeCmp_pre g) hc (h hc)).2.2.2 with ⟨_, h1, _⟩ | ⟨m', _, h1, _, h2⟩
    · rw [h1] at hm; cases hm
    · rw [h1] at hm; cases hm
      exact timeCmp_le.1 (h2 x hx)

theorem insert_ordered {g : Repo} {q q' : PQ Nat} (h : Ordered g q) (hcap : q.cap = none) {x : Nat} (hi : PQueue.insert q x = some q') : Ordered g q' := by
  intro hc
  obtain ⟨q1, h1, h2, _, _⟩ := insert_any hcap x
  rw [h1] at hi; cases hi
  rw [h2] at hc
  obtain ⟨q2, k1, _, _, _, k5⟩ := PQueue.insert_room (timeCmp_pre g) hc (h hc) (by rw [hcap]; intro n e; cases e) x
  rw [h1] at k1; cases k1
  exact k5

/-- how often `y` is a parent of the commits of `R` -/
def childEdges (g : Repo) (s : WS) (R : List Nat) (y : Nat) : Nat := (R.map fun x => (kids g s x).count y).sum

theorem childEdges_perm {g : Repo} {s : WS} {R R' : List Nat} (h : R.Perm R') (y : Nat) : childEdges g s R y = childEdges g s R' y := (h.map _).sum_nat

theorem childEdges_cons (g : Repo) (s : WS) (c : Nat) (R : List Nat) (y : Nat) : childEdges g s (c :: R) y = (kids g s c).count y + childEdges g s R y := by
  simp [childEdges]

theorem childEdges_zero {g : Repo} {s : WS} {y : Nat} : ∀ {R : List Nat}, childEdges g s R y = 0 ↔ ∀ x ∈ R, y ∉ kids g s x
  | [] => by simp [childEdges]
  | c :: R => by
    rw [childEdges_cons]
    constructor
    · intro h x hx
      rcases List.mem_cons.1 hx with rfl | hx
      · intro hm
        have := List.one_le_count_iff.2 hm
        omega
      · exact childEdges_zero.1 (by omega) x hx
    · intro h
      rw [List.count_eq_zero_of_not_mem (h c (by simp)), childEdges_zero.2 (fun x hx => h x (by simp [hx]))]

theorem countKids_ok : ∀ (ps : List Nat) (d : Deg), (∀ y, d y ≠ 0 → d y + ps.count y < 65536) → ∀ y, countKids ps d y = if d y = 0 then 0 else d y + ps.count y
  | [], d, _, y => by
    rw [countKids]
    by_cases h : d y = 0
    · rw [if_pos h, h]
    · rw [if_neg h, List.count_nil]; rfl
  | p :: ps, d, hd, y => by
    rw [countKids]
    by_cases hp : d p ≠ 0
    · rw [if_pos hp]
      have hpd := hd p hp
      rw [List.count_cons_self] at hpd
      have hmod : (d p + 1) % 65536 = d p + 1 := Nat.mod_eq_of_lt (by omega)
      rw [hmod]
      rw [countKids_ok ps]
      · unfold setDeg
        by_cases hyp : y = p
        · subst hyp
          simp only [if_true, Nat.add_eq_zero_iff, Nat.one_ne_zero, and_false, if_false]
          rw [if_neg hp, List.count_cons_self]; omega
        · rw [if_neg hyp, List.count_cons_of_ne (Ne.symm hyp)]
      · intro z hz
        unfold setDeg at hz ⊢
        by_cases hzp : z = p
        · subst hzp; rw [if_pos rfl]; omega
        · rw [if_neg hzp] at hz ⊢
          have := hd z hz
          rw [List.count_cons_of_ne (Ne.symm hzp)] at this
          exact this
    · rw [if_neg hp]
      have hp : d p = 0 := by omega
      rw [countKids_ok ps d]
      · by_cases hyp : y = p
        · subst hyp; rw [if_pos hp, if_pos hp]
        · rw [List.count_cons_of_ne (Ne.symm hyp)]
      · intro z hz
        have := hd z hz
        rw [List.count_cons] at this
        omega

theorem countAll_ok {g : Repo} {s : WS} : ∀ (R : List Nat) (d : Deg), (∀ y, d y ≠ 0 → d y + childEdges g s R y < 65536) →
    ∀ y, countAll g s R d y = if d y = 0 then 0 else d y + childEdges g s R y
  | [], d, _, y => by
    rw [countAll]
    by_cases h : d y = 0
    · rw [if_pos h, h]
    · rw [if_neg h]; simp [childEdges]
  | c :: R, d, hd, y => by
    rw [countAll]
    have h1 := countKids_ok (kids g s c) d (by intro z hz; have := hd z hz; rw [childEdges_cons] at this; omega)
    rw [countAll_ok R]
    · rw [h1 y, childEdges_cons]
      by_cases h : d y = 0
      · rw [if_pos h, if_pos rfl, if_pos h]
      · rw [if_neg h, if_neg h, if_neg (by omega)]; omega
    · intro z hz
      rw [h1 z] at hz ⊢
      by_cases h : d z = 0
      · rw [if_pos h] at hz; exact absurd rfl hz
      · rw [if_neg h]
        have := hd z h
        rw [childEdges_cons] at this; omega

theorem pushTips_ok {g : Repo} {d : Deg} : ∀ (l : List Nat) (q : PQ Nat), q.cap = none → Ordered g q →
    ∃ q', pushTips d l q = some q' ∧ q'.cmp = q.cmp ∧ q'.cap = none ∧ Ordered g q' ∧ q'.contents.Perm (l.filter (fun c => decide (d c = 1)) ++ q.contents)
  | [], q, h1, h2 => ⟨q, rfl, rfl, h1, h2, List.Perm.refl _⟩
  | c :: l, q, h1, h2 => by
    rw [pushTips]
    by_cases hc : d c = 1
    · rw [if_pos hc]
      obtain ⟨q1, k1, k2, k3, k4⟩ := insert_any h1 c
      rw [k1]
      simp only
      obtain ⟨q2, m1, m2, m3, m4, m5⟩ := pushTips_ok (d := d) l q1 k3 (insert_ordered h2 h1 k1)
      refine ⟨q2, m1, m2.trans k2, m3, m4, ?_⟩
      rw [List.filter_cons_of_pos (by simp [hc])]
      exact m5.trans ((k4.append_left _).trans List.perm_middle)
    · rw [if_neg hc, List.filter_cons_of_neg (by simp [hc])]
      exact pushTips_ok l q h1 h2

theorem releaseKids_ok {g : Repo} : ∀ (ps : List Nat) (d : Deg) (q : PQ Nat), q.cap = none → Ordered g q → (∀ y, d y = 0 ∨ d y ≥ 1 + ps.count y) →
    ∃ d' q' new, releaseKids ps d q = some (d', q') ∧ q'.cmp = q.cmp ∧ q'.cap = none ∧ Ordered g q' ∧ (∀ y, d' y = d y - (if d y = 0 then 0 else ps.count y)) ∧
      q'.contents.Perm (new ++ q.contents) ∧ new.Nodup ∧ ∀ y, y ∈ new ↔ d y > 1 ∧ d' y = 1
  | [], d, q, h1, h2, _ => ⟨d, q, [], rfl, rfl, h1, h2, by intro y; simp, List.Perm.refl _, List.nodup_nil, by intro y; simp; omega⟩
  | p :: ps, d, q, h1, h2, hd => by
    rw [releaseKids]
    by_cases h0 : d p = 0
    · rw [if_pos h0]
      obtain ⟨d', q', new, k1, k2, k3, k4, k5, k6, k7, k8⟩ := releaseKids_ok (g := g) ps d q h1 h2 (by
        intro y; rcases hd y with h | h
        · exact .inl h
        · rw [List.count_cons] at h; exact .inr (by omega))
      refine ⟨d', q', new, k1, k2, k3, k4, ?_, k6, k7, k8⟩
      intro y
      rw [k5 y]
      by_cases hy : y = p
      · subst hy; rw [h0]; simp
      · rw [List.count_cons_of_ne (Ne.symm hy)]
    · rw [if_neg h0]
      have hdp : d p ≥ 2 + ps.count p := by
        rcases hd p with h | h
        · exact absurd h h0
        · rw [List.count_cons_self] at h; omega
      have hset : ∀ y, setDeg d p (d p - 1) y = if y = p then d p - 1 else d y := fun _ => rfl
      have hd1 : ∀ y, setDeg d p (d p - 1) y = 0 ∨ setDeg d p (d p - 1) y ≥ 1 + ps.count y := by
        intro y
        rw [hset]
        by_cases hy : y = p
        · rw [if_pos hy, hy]; right; omega
        · rw [if_neg hy]
          have := hd y
          rw [List.count_cons_of_ne (Ne.symm hy)] at this
          exact this
      have hd2 : ∀ (d' : Deg), (∀ y, d' y = setDeg d p (d p - 1) y - (if setDeg d p (d p - 1) y = 0 then 0 else ps.count y)) →
          ∀ y, d' y = d y - (if d y = 0 then 0 else (p :: ps).count y) := by
        intro d' k y
        rw [k y, hset]
        by_cases hy : y = p
        · subst hy
          rw [if_pos rfl, if_neg h0, List.count_cons_self, if_neg (by omega)]; omega
        · rw [if_neg hy, List.count_cons_of_ne (Ne.symm hy)]
      by_cases hone : d p - 1 = 1
      · rw [if_pos hone]
        obtain ⟨q1, i1, i2, i3, i4⟩ := insert_any h1 p
        rw [i1]
        simp only
        obtain ⟨d', q', new, k1, k2, k3, k4, k5, k6, k7, k8⟩ := releaseKids_ok (g := g) ps (setDeg d p (d p - 1)) q1 i3 (insert_ordered h2 h1 i1) hd1
        have hk := hd2 d' k5
        refine ⟨d', q', p :: new, k1, k2.trans i2, k3, k4, hk, ?_, ?_, ?_⟩
        · exact k6.trans ((i4.append_left new).trans List.perm_middle)
        · refine List.nodup_cons.2 ⟨?_, k7⟩
          intro hm
          have := ((k8 p).1 hm).1
          rw [hset, if_pos rfl] at this; omega
        · intro y
          rw [List.mem_cons, k8 y, hset]
          by_cases hy : y = p
          · subst hy
            simp only [if_true, true_or, true_iff]
            refine ⟨by omega, ?_⟩
            rw [hk y, if_neg h0, List.count_cons_self]; omega
          · rw [if_neg hy]
            constructor
            · rintro (h | h)
              · exact absurd h hy
              · exact h
            · exact .inr
      · rw [if_neg hone]
        obtain ⟨d', q', new, k1, k2, k3, k4, k5, k6, k7, k8⟩ := releaseKids_ok (g := g) ps (setDeg d p (d p - 1)) q h1 h2 hd1
        have hk := hd2 d' k5
        refine ⟨d', q', new, k1, k2, k3, k4, hk, k6, k7, ?_⟩
        intro y
        rw [k8 y, hset]
        by_cases hy : y = p
        · subst hy
          rw [if_pos rfl]
          constructor
          · rintro ⟨a, b⟩; exact ⟨by omega, b⟩
          · rintro ⟨a, b⟩; exact ⟨by omega, b⟩
        · rw [if_neg hy]

/-- what a topological order is: no commit after one of its parents; with `time`, always the newest of those whose children have all been given -/
structure Topo (g : Repo) (s : WS) (time : Bool) (R F : List Nat) : Prop where
  perm : F.Perm R
  order : F.Pairwise fun a b => a ∉ kids g s b
  newest : time = true → ∀ pre c post, F = pre ++ c :: post → ∀ y ∈ post, (∀ x ∈ R, y ∈ kids g s x → x ∈ pre) → g.time y ≤ g.time c

theorem topoLoop_ok {g : Repo} (hac : Acyclic g) {s : WS} {time : Bool} : ∀ (fuel : Nat) (d : Deg) (q : PQ Nat) (out R : List Nat), R.length < fuel → q.cap = none → Ordered g q →
    (time = true → q.cmp = some (timeCmp g)) → R.Nodup → (∀ y, d y = if y ∈ R then 1 + childEdges g s R y else 0) → q.contents.Nodup → (∀ y, y ∈ q.contents ↔ y ∈ R ∧ d y = 1) →
    ∃ F, topoLoop g s fuel d q out = .ok (out.reverse ++ F) ∧ Topo g s time R F
  | 0, _, _, _, _, h, _, _, _, _, _, _, _ => by omega
  | fuel + 1, d, q, out, R, hf, hcap, hord, htime, hnd, hd, hqn, hq => by
    rw [topoLoop]
    obtain ⟨p1, p2, p3⟩ := pop_any q
    obtain ⟨o1, o2⟩ := pop_ordered hord
    rcases p3 with ⟨he, hnone⟩ | ⟨c, hc, hperm⟩
    · rw [hnone]
      refine ⟨[], by simp, ?_⟩
      have hR : R = [] := by
        cases R with
        | nil => rfl
        | cons x R =>
          exfalso
          obtain ⟨m, hm, _, hmax⟩ := Graph.exists_maximal hac (L := x :: R) (x := x) (by simp)
          have h0 : childEdges g s (x :: R) m = 0 := childEdges_zero.2 (fun y hy hk => hmax y hy (kids_proper hk (.refl m)))
          have : m ∈ q.contents := (hq m).2 ⟨hm, by rw [hd m, if_pos hm, h0]⟩
          rw [he] at this; cases this
      subst hR
      exact ⟨List.Perm.refl _, List.Pairwise.nil, fun _ pre c post h => by simp at h⟩
    · rw [hc]
      simp only
      have hcq : c ∈ q.contents := hperm.mem_iff.2 (by simp)
      obtain ⟨hcR, hc1⟩ := (hq c).1 hcq
      have hce : childEdges g s R c = 0 := by rw [hd c, if_pos hcR] at hc1; omega
      have hcz := childEdges_zero.1 hce
      have hRp : R.Perm (c :: R.erase c) := List.perm_cons_erase hcR
      have hmem : ∀ y, y ∈ R ↔ y = c ∨ y ∈ R.erase c := by intro y; rw [hRp.mem_iff, List.mem_cons]
      have hne : c ∉ R.erase c := fun h => (List.Nodup.mem_erase_iff hnd).1 h |>.1 rfl
      have hsum : ∀ y, childEdges g s R y = (kids g s c).count y + childEdges g s (R.erase c) y := by
        intro y; rw [childEdges_perm hRp, childEdges_cons]
      have hcap2 : (PQueue.pop q).2.cap = none := p2.trans hcap
      obtain ⟨d', q', new, k1, k2, k3, k4, k5, k6, k7, k8⟩ := releaseKids_ok (g := g) (kids g s c) d (PQueue.pop q).2 hcap2 o1 (by
        intro y
        rw [hd y]
        by_cases hy : y ∈ R
        · rw [if_pos hy, hsum]; right; omega
        · rw [if_neg hy]; exact .inl rfl)
      rw [k1]
      simp only
      have hd' : ∀ y, setDeg d' c 0 y = if y ∈ R.erase c then 1 + childEdges g s (R.erase c) y else 0 := by
        intro y
        unfold setDeg
        by_cases hy : y = c
        · subst hy; rw [if_pos rfl, if_neg hne]
        · rw [if_neg hy, k5 y, hd y]
          by_cases hyR : y ∈ R
          · have : y ∈ R.erase c := by
              rcases (hmem y).1 hyR with h | h
              · exact absurd h hy
              · exact h
            rw [if_pos hyR, if_pos this, if_neg (by omega), hsum]; omega
          · rw [if_neg hyR, if_pos rfl, if_neg (fun h => hyR ((hmem y).2 (.inr h)))]
      have hq1n : (c :: (PQueue.pop q).2.contents).Nodup := hperm.nodup_iff.1 hqn
      have hcn : c ∉ (PQueue.pop q).2.contents := (List.nodup_cons.1 hq1n).1
      have hold : ∀ y, y ∈ (PQueue.pop q).2.contents ↔ y ∈ R ∧ d y = 1 ∧ y ≠ c := by
        intro y
        constructor
        · intro h
          obtain ⟨a, b⟩ := (hq y).1 (hperm.mem_iff.2 (by simp [h]))
          exact ⟨a, b, fun e => hcn (e ▸ h)⟩
        · rintro ⟨a, b, e⟩
          have := hperm.mem_iff.1 ((hq y).2 ⟨a, b⟩)
          rcases List.mem_cons.1 this with h | h
          · exact absurd h e
          · exact h
      obtain ⟨F, f1, f2⟩ := topoLoop_ok hac (s := s) (time := time) fuel (setDeg d' c 0) q' (c :: out) (R.erase c)
        (by rw [List.length_erase_of_mem hcR]; have := List.length_pos_of_mem hcR; omega) k3 k4 (fun ht => by rw [k2, p1]; exact htime ht)
        (hnd.erase c) hd'
        (by
          rw [k6.nodup_iff, List.nodup_append]
          refine ⟨k7, (List.nodup_cons.1 hq1n).2, ?_⟩
          rintro a ha b hb rfl
          have h1 := ((k8 a).1 ha).1
          have h2 := ((hold a).1 hb).2.1
          omega)
        (by
          intro y
          rw [k6.mem_iff, List.mem_append, k8 y, hold y, List.Nodup.mem_erase_iff hnd]
          have hsd : ∀ y, y ≠ c → setDeg d' c 0 y = d' y := by intro y hy; unfold setDeg; rw [if_neg hy]
          have hdy := hd y
          have hk5 := k5 y
          constructor
          · rintro (⟨a, b⟩ | ⟨a, b, e⟩)
            · have hyc : y ≠ c := by rintro rfl; omega
              have hyR : y ∈ R := by
                by_cases h : y ∈ R
                · exact h
                · rw [if_neg h] at hdy; omega
              exact ⟨⟨hyc, hyR⟩, by rw [hsd y hyc]; exact b⟩
            · refine ⟨⟨e, a⟩, ?_⟩
              rw [hsd y e, hk5, b, if_neg (by omega)]
              rw [b, if_pos a, hsum] at hdy
              omega
          · rintro ⟨⟨e, a⟩, b⟩
            rw [hsd y e] at b
            rw [if_pos a] at hdy
            by_cases h1 : d y = 1
            · exact .inr ⟨a, h1, e⟩
            · exact .inl ⟨by omega, b⟩)
      refine ⟨c :: F, ?_, ?_, ?_, ?_⟩
      · rw [f1]; simp
      · exact (f2.perm.cons c).trans hRp.symm
      · refine List.pairwise_cons.2 ⟨?_, f2.order⟩
        intro b hb
        exact hcz b ((hmem b).2 (.inr (f2.perm.mem_iff.1 hb)))
      · intro ht pre x post hF y hy hall
        cases pre with
        | nil =>
          simp only [List.nil_append, List.cons.injEq] at hF
          obtain ⟨rfl, rfl⟩ := hF
          have hyR : y ∈ R := (hmem y).2 (.inr (f2.perm.mem_iff.1 hy))
          have hyc : y ≠ c := by rintro rfl; exact hne (f2.perm.mem_iff.1 hy)
          have hz : childEdges g s R y = 0 := childEdges_zero.2 (fun z hz hk => by cases hall z hz hk)
          exact o2 (htime ht) c hc y ((hold y).2 ⟨hyR, by rw [hd y, if_pos hyR, hz], hyc⟩)
        | cons a pre =>
          simp only [List.cons_append, List.cons.injEq] at hF
          obtain ⟨rfl, hF⟩ := hF
          refine f2.newest ht pre x post hF y hy ?_
          intro z hz hk
          rcases List.mem_cons.1 (hall z ((hmem z).2 (.inr hz)) hk) with h | h
          · subst h; exact absurd hz hne
          · exact h

theorem topoSort_ok {g : Repo} (hac : Acyclic g) {o : Opts} {s : WS} {L : List Nat} (hnd : L.Nodup) (hsmall : ∀ y ∈ L, childEdges g s L y < 65535) :
    ∃ F, topoSort g o s L = .ok F ∧ Topo g s o.time L F := by
  unfold topoSort
  simp only
  have hst : ∀ y, startDeg L y = if y ∈ L then 1 else 0 := fun _ => rfl
  have hd : ∀ y, countAll g s L (startDeg L) y = if y ∈ L then 1 + childEdges g s L y else 0 := by
    intro y
    rw [countAll_ok L (startDeg L) (by
      intro z hz
      rw [hst] at hz ⊢
      by_cases h : z ∈ L
      · rw [if_pos h]; have := hsmall z h; omega
      · rw [if_neg h] at hz; exact absurd rfl hz), hst]
    by_cases h : y ∈ L
    · rw [if_pos h, if_pos h, if_neg (by omega)]
    · rw [if_neg h, if_neg h, if_pos rfl]
  obtain ⟨q, h1, h2, h3, h4, h5⟩ := pushTips_ok (g := g) (d := countAll g s L (startDeg L)) L (PQueue.init false 8 (if o.time then some (timeCmp g) else none)) rfl
    (by intro _; exact PQueue.heap_nil)
  rw [h1]
  simp only
  have hcont : q.contents.Perm (L.filter fun c => decide (countAll g s L (startDeg L) c = 1)) := by
    have : (PQueue.init false 8 (if o.time then some (timeCmp g) else none) : PQ Nat).contents = [] := rfl
    rw [this, List.append_nil] at h5; exact h5
  have hr : (if o.time then q else reverseQ q).contents.Perm q.contents := by
    split
    · exact List.Perm.refl _
    · exact List.reverse_perm _
  have hcmp : q.cmp = (if o.time then some (timeCmp g) else none) := h2
  obtain ⟨F, f1, f2⟩ := topoLoop_ok hac (s := s) (time := o.time) (L.length + 1) (countAll g s L (startDeg L)) (if o.time then q else reverseQ q) [] L (by omega)
    (by split
        · exact h3
        · exact h3)
    (by
      by_cases ht : o.time = true
      · rw [if_pos ht]; exact h4
      · rw [if_neg ht]
        intro hc
        have : q.cmp = some (timeCmp g) := hc
        rw [hcmp, if_neg ht] at this; cases this)
    (by intro ht; rw [if_pos ht, hcmp, if_pos ht]) hnd hd
    ((hr.trans hcont).nodup_iff.2 (hnd.filter _))
    (by
      intro y
      rw [(hr.trans hcont).mem_iff, List.mem_filter]; simp)
  exact ⟨F, by rw [f1]; simp, f2⟩

/-! ### by date -/

theorem pushTimes_ok {g : Repo} : ∀ (l : List Nat) (q : PQ Nat), q.cap = none → Ordered g q →
    ∃ q', pushTimes l q = some q' ∧ q'.cmp = q.cmp ∧ Ordered g q' ∧ q'.contents.Perm (l ++ q.contents)
  | [], q, _, h2 => ⟨q, rfl, rfl, h2, List.Perm.refl _⟩
  | c :: l, q, h1, h2 => by
    rw [pushTimes]
    obtain ⟨q1, k1, k2, k3, k4⟩ := insert_any h1 c
    rw [k1]
    simp only
    obtain ⟨q2, m1, m2, m3, m4⟩ := pushTimes_ok l q1 k3 (insert_ordered h2 h1 k1)
    exact ⟨q2, m1, m2.trans k2, m3, m4.trans ((k4.append_left _).trans List.perm_middle)⟩

theorem popTimes_ok {g : Repo} : ∀ (n : Nat) (q : PQ Nat), q.cmp = some (timeCmp g) → Ordered g q → q.contents.length = n →
    (popTimes n q).Perm q.contents ∧ (popTimes n q).Pairwise fun a b => g.time a ≥ g.time b
  | 0, q, _, _, hl => by
    rw [List.length_eq_zero_iff] at hl
    rw [hl]; exact ⟨List.Perm.refl _, List.Pairwise.nil⟩
  | n + 1, q, hc, ho, hl => by
    rw [popTimes]
    obtain ⟨p1, _, p3⟩ := pop_any q
    obtain ⟨o1, o2⟩ := pop_ordered ho
    rcases p3 with ⟨he, _⟩ | ⟨c, h1, h2⟩
    · rw [he] at hl; cases hl
    · rw [h1]
      simp only
      have hlen := h2.length_eq
      rw [List.length_cons] at hlen
      obtain ⟨k1, k2⟩ := popTimes_ok n (PQueue.pop q).2 (p1.trans hc) o1 (by omega)
      refine ⟨(k1.cons c).trans h2.symm, List.pairwise_cons.2 ⟨?_, k2⟩⟩
      intro y hy
      exact o2 hc c h1 y (k1.mem_iff.1 hy)

theorem timeSort_ok (g : Repo) (L : List Nat) : ∃ F, timeSort g L = .ok F ∧ F.Perm L ∧ F.Pairwise fun a b => g.time a ≥ g.time b := by
  unfold timeSort
  obtain ⟨q, h1, h2, h3, h4⟩ := pushTimes_ok (g := g) L (PQueue.init false 8 (some (timeCmp g))) rfl (by intro _; exact PQueue.heap_nil)
  rw [h1]
  simp only
  have h4 : q.contents.Perm L := by
    have : (PQueue.init false 8 (some (timeCmp g)) : PQ Nat).contents = [] := rfl
    rw [this, List.append_nil] at h4; exact h4
  obtain ⟨k1, k2⟩ := popTimes_ok L.length q h2 h3 h4.length_eq
  exact ⟨_, rfl, k1.trans h4, k2⟩

end Verif.Revwalk
