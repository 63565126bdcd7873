import Verif.Graph.Lemmas2
/-! # `paint_down_to_common`, `clear_commit_marks`, `remove_redundant` -/
namespace Verif.Graph
open PQueue (PQ Heap)
open PQueue.Spec (Preorder)

/-- everything that can be reached can be read -/
def Unreadable (g : Repo) (one : Nat) (twos : List Nat) : Prop := ∃ x, (Reaches g one x ∨ ∃ t ∈ twos, Reaches g t x) ∧ g.parents x = none

theorem paintTwos_ok {g : Repo} {cmp : Nat → Nat → Int} : ∀ (ts : List Nat) (q : PQ Nat) (fl : Marks), q.cmp = some cmp → q.cap = none →
    (paintTwos g ts q fl = .err (-1) ∧ ∃ t ∈ ts, g.parents t = none) ∨
    ∃ q' fl', paintTwos g ts q fl = .ok (q', fl') ∧ q'.cmp = some cmp ∧ q'.cap = none ∧ q'.contents.Perm (ts.reverse ++ q.contents) ∧
      (Preorder cmp → Heap cmp q.contents → Heap cmp q'.contents) ∧ (∀ t ∈ ts, ∃ ps, g.parents t = some ps) ∧
      ∀ x, fl' x = if x ∈ ts then { (fl x) with p2 := true } else fl x
  | [], q, fl, hq, hc => .inr ⟨q, fl, rfl, hq, hc, List.Perm.refl _, fun _ h => h, by simp, by simp⟩
  | t :: ts, q, fl, hq, hc => by
    rw [paintTwos]
    cases hp : g.parents t with
    | none => exact .inl ⟨rfl, t, by simp, hp⟩
    | some ps =>
      obtain ⟨q1, i1, i2, i3, i4, i5⟩ := insert_both hq hc t
      simp only [i1]
      rcases paintTwos_ok ts q1 (upd fl t { (fl t) with p2 := true }) i2 i3 with ⟨h1, x, hx, h2⟩ | ⟨q', fl', h1, h2, h3, h4, h5, h6, h7⟩
      · exact .inl ⟨h1, x, by simp [hx], h2⟩
      · refine .inr ⟨q', fl', h1, h2, h3, ?_, fun a b => h5 a (i5 a b), ?_, ?_⟩
        · refine h4.trans ((i4.append_left _).trans ?_)
          simp only [List.reverse_cons, List.append_assoc, List.singleton_append]
          exact List.Perm.refl _
        · intro x hx
          rcases List.mem_cons.1 hx with rfl | hx
          · exact ⟨ps, hp⟩
          · exact h6 x hx
        · intro x
          rw [h7 x]
          unfold upd
          by_cases hx : x = t
          · subst hx; simp
          · simp [hx]

/-- the state with which the loop starts -/
theorem start_inv {g : Repo} {one : Nat} {twos : List Nat} (h1 : one < g.n) (h2 : ∀ t ∈ twos, t < g.n) (hp : ∃ ps, g.parents one = some ps) {k : Nat} {q0 : PQ Nat}
    (hq0 : PQueue.insert (PQueue.init false k (some (generationCmp g))) one = some q0) :
    (paintTwos g twos q0 (upd clean one { noFlags with p1 := true }) = .err (-1) ∧ ∃ t ∈ twos, g.parents t = none) ∨
    ∃ r, paintTwos g twos q0 (upd clean one { noFlags with p1 := true }) = .ok r ∧ Inv g one twos ⟨r.1, r.2, [], []⟩ ∧ left g ⟨r.1, r.2, [], []⟩ < paintFuel g twos.length ∧
      (Preorder (generationCmp g) → Heap (generationCmp g) r.1.contents) ∧ (∀ x, (r.2 x).any = true → x ∈ r.1.contents) := by
  obtain ⟨q0', i1, i2, i3, i4, i5⟩ := insert_both (q := PQueue.init false k (some (generationCmp g))) (cmp := generationCmp g) rfl rfl one
  rw [hq0] at i1
  cases i1
  have hc0 : q0.contents.Perm [one] := i4
  rcases paintTwos_ok (g := g) twos q0 (upd clean one { noFlags with p1 := true }) i2 i3 with h | ⟨q', fl', k1, k2, k3, k4, k5, k6, k7⟩
  · exact .inl h
  right
  have hq : ∀ x, x ∈ q'.contents ↔ x ∈ twos ∨ x = one := by
    intro x; rw [k4.mem_iff, List.mem_append, hc0.mem_iff]; simp
  have hfl : ∀ x, fl' x = ⟨decide (x = one), decide (x ∈ twos), false, false⟩ := by
    intro x
    rw [k7 x]
    unfold upd clean noFlags
    by_cases hx : x ∈ twos
    · by_cases h1 : x = one
      · rw [if_pos hx, if_pos h1, decide_eq_true hx, decide_eq_true h1]
      · rw [if_pos hx, if_neg h1, decide_eq_true hx, decide_eq_false h1]
    · by_cases h1 : x = one
      · rw [if_neg hx, if_pos h1, decide_eq_false hx, decide_eq_true h1]
      · rw [if_neg hx, if_neg h1, decide_eq_false hx, decide_eq_false h1]
  have hany : ∀ x, (fl' x).any = true → x ∈ twos ∨ x = one := by
    intro x hx
    rw [hfl x] at hx
    simp [Flags.any] at hx
    exact hx.symm
  refine ⟨(q', fl'), k1, ?_, ?_, fun a => k5 a (i5 a (by intro i x y _ h _; simp [PQueue.init] at h)), fun x hx => (hq x).2 (hany x hx)⟩
  · constructor
    · exact k2
    · exact k3
    · intro c hc
      rcases hany c hc with h | h
      · exact ⟨h2 c h, k6 c h⟩
      · rw [h]; exact ⟨h1, hp⟩
    · intro c hc
      simp only [hfl c]
      rcases (hq c).1 hc with h | h
      · right; simp [h]
      · left; simp [h]
    · simp [hfl one]
    · intro t ht; simp [hfl t, ht]
    · intro c hc
      simp only [hfl c, decide_eq_true_eq] at hc
      rw [hc]; exact .refl _
    · intro c hc
      simp only [hfl c, decide_eq_true_eq] at hc
      exact ⟨c, hc, .refl c⟩
    · intro c hc; simp [hfl c] at hc
    · intro c; simp [hfl c]
    · intro c hc; cases hc
    · exact List.nodup_nil
    · intro c hc hn
      exact absurd ((hq c).2 (hany c hc)) hn
    · intro c k1 k2 _ hn
      have : (fl' c).any = true := any_iff.2 (.inl k1)
      exact absurd ((hq c).2 (hany c this)) hn
    · intro c hc
      refine ⟨c, ?_, .refl c hc⟩
      rcases hany c hc with h | h
      · simp [h]
      · simp [h]
  · unfold left paintFuel
    have := k4.length_eq
    have h0 := hc0.length_eq
    have := pot_le g fl'
    simp only [List.length_append, List.length_reverse, List.length_cons, List.length_nil] at *
    omega

theorem allStale_of {s : State} (h : interesting s = false ∨ s.q.contents = []) : AllStale s := by
  intro c hc
  rcases h with h | h
  · unfold interesting at h
    rw [List.any_eq_false] at h
    simpa using h c hc
  · rw [h] at hc; cases hc

/-- `paint_down_to_common` on clean marks -/
theorem paintDown_ok {g : Repo} (hcl : Closed g) {one : Nat} {twos : List Nat} (h1 : one < g.n) (h2 : ∀ t ∈ twos, t < g.n) (hp : ∃ ps, g.parents one = some ps) :
    (paintDown g clean one twos = .err (-1) ∧ Unreadable g one twos) ∨
    ∃ s, paintDown g clean one twos = .ok s ∧ Inv g one twos s ∧ AllStale s := by
  unfold paintDown
  obtain ⟨q0, i1, _⟩ := insert_both (q := PQueue.init false (twos.length * 2) (some (generationCmp g))) (cmp := generationCmp g) rfl rfl one
  rw [i1]
  simp only
  rcases start_inv h1 h2 hp i1 with ⟨k1, t, ht, k2⟩ | ⟨r, k1, k2, k3, _, _⟩
  · left
    have : upd clean one { (clean one) with p1 := true } = upd clean one { noFlags with p1 := true } := rfl
    rw [this, k1]
    exact ⟨rfl, t, .inr ⟨t, ht, .refl t⟩, k2⟩
  · have : upd clean one { (clean one) with p1 := true } = upd clean one { noFlags with p1 := true } := rfl
    rw [this, k1, Res.bind_ok]
    rcases loop_inv hcl (I := interesting) (P := fun _ => True) (fun _ _ _ _ _ _ _ _ _ _ _ _ _ _ _ _ => trivial) _ _ k2 trivial k3 with
      ⟨l1, c, p, ps, l2, l3, l4, l5⟩ | ⟨s', l1, l2, _, l3⟩
    · left
      refine ⟨l1, p, ?_, l5⟩
      rcases l2 with l2 | ⟨t, ht, l2⟩
      · exact .inl (l2.trans (.step l3 l4 (.refl p)))
      · exact .inr ⟨t, ht, l2.trans (.step l3 l4 (.refl p))⟩
    · exact .inr ⟨s', l1, l2, allStale_of l3⟩

/-! ### clearing the marks -/

theorem MPath.without {g : Repo} {fl : Marks} {c : Nat} {r x : Nat} (h : MPath g fl r x) (hx : x ≠ c) :
    MPath g (upd fl c noFlags) r x ∨ ∃ ps p, g.parents c = some ps ∧ p ∈ ps ∧ MPath g (upd fl c noFlags) p x := by
  induction h with
  | refl a ha => exact .inl (.refl a (by unfold upd; rw [if_neg hx]; exact ha))
  | @step a p x ps ha hps hm _ ih =>
    rcases ih hx with h | h
    · by_cases hac : a = c
      · subst hac; exact .inr ⟨ps, p, hps, hm, h⟩
      · exact .inl (.step (by unfold upd; rw [if_neg hac]; exact ha) hps hm h)
    · exact .inr h

/-- the parents of the commits that are marked -/
def markedEdges (g : Repo) (fl : Marks) : Nat := ((List.range g.n).map fun c => if (fl c).any then ((g.parents c).getD []).length else 0).sum

theorem sum_le {α : Type} (f h : α → Nat) (hle : ∀ x, f x ≤ h x) : ∀ l : List α, (l.map f).sum ≤ (l.map h).sum
  | [] => Nat.le_refl _
  | a :: l => by
    simp only [List.map_cons, List.sum_cons]
    have := sum_le f h hle l
    have := hle a
    omega

theorem markedEdges_le (g : Repo) (fl : Marks) : markedEdges g fl ≤ edges g := by
  refine sum_le _ _ ?_ _
  intro x
  split <;> omega

theorem sum_upd' (w : Nat → Nat) (b : Nat → Bool) (c : Nat) (hc : b c = true) : ∀ n, c < n →
    ((List.range n).map fun x => if (if x = c then false else b x) = true then w x else 0).sum + w c = ((List.range n).map fun x => if b x = true then w x else 0).sum := by
  have hlow : ∀ n, n ≤ c → ((List.range n).map fun x => if (if x = c then false else b x) = true then w x else 0) = ((List.range n).map fun x => if b x = true then w x else 0) := by
    intro n hn
    apply List.map_congr_left
    intro x hx
    rw [List.mem_range] at hx
    rw [if_neg (show ¬x = c by omega)]
  intro n
  induction n with
  | zero => intro h; omega
  | succ n ih =>
    intro h
    rw [List.range_succ, List.map_append, List.map_append, List.sum_append, List.sum_append]
    simp only [List.map_cons, List.map_nil, List.sum_cons, List.sum_nil, Nat.add_zero]
    by_cases hcn : c = n
    · subst hcn
      rw [hlow c (Nat.le_refl _)]
      simp [hc]
    · have := ih (by omega)
      rw [if_neg (show ¬n = c by omega)]
      omega

theorem markedEdges_upd {g : Repo} {fl : Marks} {c : Nat} (hc : c < g.n) (hm : (fl c).any = true) :
    markedEdges g (upd fl c noFlags) + ((g.parents c).getD []).length = markedEdges g fl := by
  have := sum_upd' (fun x => ((g.parents x).getD []).length) (fun x => (fl x).any) c hm g.n hc
  unfold markedEdges
  rw [← this]
  congr 3
  funext x
  unfold upd
  by_cases hx : x = c
  · subst hx; simp [noFlags, Flags.any]
  · simp [hx]

/-- clearing the marks reached from the commits on the list leaves those reached from others only -/
theorem clearLoop_ok {g : Repo} {extra : List Nat} : ∀ (fuel : Nat) (l : List Nat) (fl : Marks), (∀ x, (fl x).any = true → x < g.n) → l.length + markedEdges g fl ≤ fuel →
    (∀ x, (fl x).any = true → ∃ r, (r ∈ l ∨ r ∈ extra) ∧ MPath g fl r x) →
    ∃ fl', clearLoop g fuel l fl = .ok fl' ∧ (∀ x, (fl' x).any = true → x < g.n) ∧ ∀ x, (fl' x).any = true → ∃ r ∈ extra, MPath g fl' r x
  | fuel, [], fl, hn, _, hcov => ⟨fl, by cases fuel <;> rfl, hn, fun x hx => by
      obtain ⟨r, hr, hp⟩ := hcov x hx
      rcases hr with h | h
      · cases h
      · exact ⟨r, h, hp⟩⟩
  | 0, c :: l, fl, _, hf, _ => by simp at hf
  | fuel + 1, c :: l, fl, hn, hf, hcov => by
    rw [clearLoop]
    by_cases hm : (fl c).any = true
    · rw [if_pos hm]
      simp only
      have hsum := markedEdges_upd (hn c hm) hm
      refine clearLoop_ok fuel _ (upd fl c noFlags) ?_ ?_ ?_
      · intro x hx
        unfold upd at hx
        by_cases hxc : x = c
        · rw [hxc]; exact hn c hm
        · rw [if_neg hxc] at hx; exact hn x hx
      · have : (((g.parents c).getD []).take 1 ++ (((g.parents c).getD []).drop 1).reverse ++ l).length = ((g.parents c).getD []).length + l.length := by
          simp only [List.length_append, List.length_reverse, List.length_take, List.length_drop]; omega
        rw [this]
        simp only [List.length_cons] at hf
        omega
      · intro x hx
        by_cases hxc : x = c
        · subst hxc; simp [upd, noFlags, Flags.any] at hx
        · have hx' : (fl x).any = true := by unfold upd at hx; rw [if_neg hxc] at hx; exact hx
          obtain ⟨r, hr, hp⟩ := hcov x hx'
          rcases hp.without hxc with h | ⟨ps, p, hps, hpm, h⟩
          · rcases hr with hr | hr
            · rcases List.mem_cons.1 hr with rfl | hr
              · exfalso
                cases h with
                | refl _ h => simp [upd, noFlags, Flags.any] at h
                | step h => simp [upd, noFlags, Flags.any] at h
              · exact ⟨r, .inl (by simp [hr]), h⟩
            · exact ⟨r, .inr hr, h⟩
          · refine ⟨p, .inl ?_, h⟩
            rw [hps]
            simp only [Option.getD_some, List.mem_append, List.mem_reverse]
            left
            rw [← List.take_append_drop 1 ps, List.mem_append] at hpm
            exact hpm
    · rw [if_neg hm]
      refine clearLoop_ok fuel l fl hn (by simp only [List.length_cons] at hf; omega) ?_
      intro x hx
      obtain ⟨r, hr, hp⟩ := hcov x hx
      rcases hr with hr | hr
      · rcases List.mem_cons.1 hr with rfl | hr
        · exfalso
          cases hp with
          | refl _ h => exact hm h
          | step h => exact hm h
        · exact ⟨r, .inl hr, hp⟩
      · exact ⟨r, .inr hr, hp⟩

theorem not_any {f : Flags} (h : f.any = false) : f = noFlags := by
  obtain ⟨a, b, c, d⟩ := f
  simp only [Flags.any, Bool.or_eq_false_iff] at h
  simp [noFlags, h]

/-- clearing from the start commits gives clean marks again -/
theorem clear_both {g : Repo} {one : Nat} {twos : List Nat} {s : State} (hi : Inv g one twos s) :
    (clearMarks g [one] s.fl >>= fun fl => clearMarks g twos fl) = .ok clean := by
  unfold clearMarks
  obtain ⟨fl1, h1, h2, h3⟩ := clearLoop_ok (g := g) (extra := twos) ([one].length + edges g) [one].reverse s.fl (fun x hx => (hi.known x hx).1)
    (by have := markedEdges_le g s.fl; simp only [List.length_reverse]; omega) (by
      intro x hx
      obtain ⟨r, hr, hp⟩ := hi.chain x hx
      refine ⟨r, ?_, hp⟩
      rcases List.mem_cons.1 hr with rfl | hr
      · exact .inl (by simp)
      · exact .inr hr)
  rw [h1, Res.bind_ok]
  obtain ⟨fl2, k1, k2, k3⟩ := clearLoop_ok (g := g) (extra := []) (twos.length + edges g) twos.reverse fl1 h2
    (by have := markedEdges_le g fl1; simp only [List.length_reverse]; omega) (by
      intro x hx
      obtain ⟨r, hr, hp⟩ := h3 x hx
      exact ⟨r, .inl (by simpa using hr), hp⟩)
  rw [k1]
  congr 1
  funext x
  apply not_any
  by_cases h : (fl2 x).any = true
  · obtain ⟨r, hr, _⟩ := k3 x h
    cases hr
  · simpa using h

/-! ### insertion by date -/

theorem insertByDate_perm (g : Repo) (c : Nat) : ∀ l, (insertByDate g c l).Perm (c :: l)
  | [] => List.Perm.refl _
  | p :: l => by
    rw [insertByDate]
    split
    · exact List.Perm.refl _
    · exact ((insertByDate_perm g c l).cons p).trans (List.Perm.swap _ _ _)

/-- newest first -/
def ByDate (g : Repo) (l : List Nat) : Prop := l.Pairwise fun a b => g.time a ≥ g.time b

theorem timeCmp_pos {g : Repo} {a b : Nat} : timeCmp g a b > 0 ↔ g.time a < g.time b := by
  unfold timeCmp
  constructor
  · intro h
    by_cases h1 : g.time a < g.time b
    · exact h1
    · rw [if_neg h1] at h
      split at h <;> omega
  · intro h; rw [if_pos h]; omega

theorem insertByDate_sorted (g : Repo) (c : Nat) : ∀ l, ByDate g l → ByDate g (insertByDate g c l)
  | [], _ => List.pairwise_singleton _ _
  | p :: l, h => by
    rw [insertByDate]
    have hp := List.pairwise_cons.1 h
    by_cases hc : timeCmp g p c > 0
    · rw [if_pos hc]
      rw [timeCmp_pos] at hc
      refine List.pairwise_cons.2 ⟨?_, h⟩
      intro x hx
      rcases List.mem_cons.1 hx with rfl | hx
      · omega
      · have := hp.1 x hx; omega
    · rw [if_neg hc]
      rw [timeCmp_pos] at hc
      refine List.pairwise_cons.2 ⟨?_, insertByDate_sorted g c l hp.2⟩
      intro x hx
      rw [(insertByDate_perm g c l).mem_iff] at hx
      rcases List.mem_cons.1 hx with rfl | hx
      · omega
      · exact hp.1 x hx

theorem fold_by_date (g : Repo) : ∀ (l acc : List Nat), ByDate g acc →
    (l.foldl (fun l c => insertByDate g c l) acc).Perm (l ++ acc) ∧ ByDate g (l.foldl (fun l c => insertByDate g c l) acc)
  | [], acc, h => ⟨List.Perm.refl _, h⟩
  | c :: l, acc, h => by
    obtain ⟨h1, h2⟩ := fold_by_date g l (insertByDate g c acc) (insertByDate_sorted g c acc h)
    refine ⟨?_, h2⟩
    refine h1.trans (((insertByDate_perm g c acc).append_left l).trans ?_)
    exact List.perm_middle

/-! ### the maximal ones of a list -/

theorem maximal {g : Repo} (hac : Acyclic g) (L : List Nat) : ∀ (k : Nat) (x : Nat), x ∈ L → (∃ M : List Nat, M.length = k ∧ ∀ y ∈ L, Proper g y x → y ∈ M) →
    ∃ m ∈ L, Reaches g m x ∧ ∀ y ∈ L, ¬Proper g y m
  | 0, x, hx, ⟨M, hM, hc⟩ => by
    refine ⟨x, hx, .refl x, fun y hy hp => ?_⟩
    have := hc y hy hp
    rw [List.length_eq_zero_iff] at hM
    rw [hM] at this; cases this
  | k + 1, x, hx, ⟨M, hM, hc⟩ => by
    by_cases hex : ∃ y ∈ L, Proper g y x
    · obtain ⟨y, hy, hp⟩ := hex
      have hyM := hc y hy hp
      obtain ⟨m, hm, hr, hmax⟩ := maximal hac L k y hy ⟨M.erase y, by rw [List.length_erase_of_mem hyM, hM]; rfl, by
        intro z hz hzp
        have hzM := hc z hz (hzp.trans hp.reaches)
        have hzy : z ≠ y := by
          rintro rfl
          exact hac z hzp
        exact (List.mem_erase_of_ne hzy).2 hzM⟩
      exact ⟨m, hm, hr.trans hp.reaches, hmax⟩
    · exact ⟨x, hx, .refl x, fun y hy hp => hex ⟨y, hy, hp⟩⟩

theorem exists_maximal {g : Repo} (hac : Acyclic g) {L : List Nat} {x : Nat} (hx : x ∈ L) : ∃ m ∈ L, Reaches g m x ∧ ∀ y ∈ L, ¬Proper g y m :=
  maximal hac L L.length x hx ⟨L, rfl, fun _ hy _ => hy⟩

/-! ### `remove_redundant` -/

theorem getD_set (l : List Bool) (i j : Nat) (b : Bool) : (l.set i b).getD j false = if i = j ∧ j < l.length then b else l.getD j false := by
  simp only [List.getD_eq_getElem?_getD, List.getElem?_set]
  by_cases h : i = j
  · subst h
    by_cases h2 : i < l.length
    · simp [h2]
    · simp [h2]
  · simp [h]

theorem mem_work {commits : List Nat} {r : List Bool} {i : Nat} {w : Nat × Nat} :
    w ∈ workOf commits r i ↔ w.1 < commits.length ∧ w.1 ≠ i ∧ r.getD w.1 false = false ∧ w.2 = commits.getD w.1 0 := by
  unfold workOf
  simp only [List.mem_map, List.mem_filter, List.mem_range, Bool.and_eq_true, decide_eq_true_eq, Bool.not_eq_true']
  constructor
  · rintro ⟨j, ⟨h1, h2, h3⟩, rfl⟩
    exact ⟨h1, h2, h3, rfl⟩
  · rintro ⟨h1, h2, h3, h4⟩
    exact ⟨w.1, ⟨h1, h2, h3⟩, by rw [← h4]⟩

theorem fold_marks {fl : Marks} : ∀ (W : List (Nat × Nat)) (r : List Bool), (W.foldl (fun r w => if (fl w.2).p1 then r.set w.1 true else r) r).length = r.length ∧
    (∀ j, r.getD j false = true → (W.foldl (fun r w => if (fl w.2).p1 then r.set w.1 true else r) r).getD j false = true) ∧
    ∀ j, (W.foldl (fun r w => if (fl w.2).p1 then r.set w.1 true else r) r).getD j false = true → r.getD j false = true ∨ ∃ w ∈ W, w.1 = j ∧ (fl w.2).p1 = true
  | [], r => ⟨rfl, fun _ h => h, fun _ h => .inl h⟩
  | w :: W, r => by
    rw [List.foldl_cons]
    obtain ⟨h1, h2, h3⟩ := fold_marks (fl := fl) W (if (fl w.2).p1 then r.set w.1 true else r)
    refine ⟨?_, ?_, ?_⟩
    · rw [h1]; split <;> simp
    · intro j hj
      apply h2
      split
      · rw [getD_set]; split
        · rfl
        · exact hj
      · exact hj
    · intro j hj
      rcases h3 j hj with h | ⟨w', hw', h⟩
      · by_cases hp : (fl w.2).p1 = true
        · rw [if_pos hp, getD_set] at h
          by_cases hwj : w.1 = j
          · exact .inr ⟨w, by simp, hwj, hp⟩
          · rw [if_neg (by rintro ⟨a, _⟩; exact hwj a)] at h; exact .inl h
        · rw [if_neg hp] at h; exact .inl h
      · exact .inr ⟨w', by simp [hw'], h⟩

/-- which entries may be marked: those that are ancestors of another -/
def Sound (g : Repo) (commits : List Nat) (r : List Bool) : Prop := r.length = commits.length ∧
  ∀ j < commits.length, r.getD j false = true → ∃ y ∈ commits, Proper g y (commits.getD j 0)

theorem getD_mem {l : List Nat} {j : Nat} (h : j < l.length) : l.getD j 0 ∈ l := by
  rw [List.getD_eq_getElem?_getD, List.getElem?_eq_getElem h]; exact List.getElem_mem h

theorem getD_inj {l : List Nat} (hn : l.Nodup) {i j : Nat} (hi : i < l.length) (hj : j < l.length) (h : l.getD i 0 = l.getD j 0) : i = j := by
  rw [List.getD_eq_getElem?_getD, List.getD_eq_getElem?_getD, List.getElem?_eq_getElem hi, List.getElem?_eq_getElem hj] at h
  simp only [Option.getD_some] at h
  rcases Nat.lt_trichotomy i j with hij | hij | hij
  · exact absurd h (List.pairwise_iff_getElem.1 hn i j hi hj hij)
  · exact hij
  · exact absurd h.symm (List.pairwise_iff_getElem.1 hn j i hj hi hij)

theorem mem_getD {l : List Nat} {x : Nat} (h : x ∈ l) : ∃ j < l.length, l.getD j 0 = x := by
  obtain ⟨j, hj, e⟩ := List.getElem_of_mem h
  exact ⟨j, hj, by rw [List.getD_eq_getElem?_getD, List.getElem?_eq_getElem hj]; exact e⟩

/-- one turn -/
theorem step_ok {g : Repo} (hcl : Closed g) (hac : Acyclic g) {commits : List Nat} (hnd : commits.Nodup) (hlt : ∀ c ∈ commits, c < g.n)
    (hrd : ∀ c ∈ commits, ∃ ps, g.parents c = some ps) {i : Nat} (hi : i < commits.length) {r : List Bool} (hr : Sound g commits r) :
    (redundantStep g commits i r clean = .err (-1) ∧ ∃ c ∈ commits, ∃ x, Reaches g c x ∧ g.parents x = none) ∨
    ∃ r', redundantStep g commits i r clean = .ok (r', clean) ∧ Sound g commits r' ∧ (∀ j, r.getD j false = true → r'.getD j false = true) ∧
      ((∃ y ∈ commits, Proper g y (commits.getD i 0)) → r'.getD i false = true) := by
  unfold redundantStep
  by_cases hri : r.getD i false = true
  · rw [if_pos hri]
    exact .inr ⟨r, rfl, hr, fun _ h => h, fun _ => hri⟩
  rw [if_neg hri]
  simp only
  have hcm := getD_mem hi
  have hwm : ∀ t ∈ (workOf commits r i).map (·.2), ∃ j < commits.length, j ≠ i ∧ r.getD j false = false ∧ t = commits.getD j 0 := by
    intro t ht
    obtain ⟨w, hw, rfl⟩ := List.mem_map.1 ht
    obtain ⟨a, b, c, d⟩ := mem_work.1 hw
    exact ⟨w.1, a, b, c, d⟩
  rcases paintDown_ok hcl (hlt _ hcm) (twos := (workOf commits r i).map (·.2)) (by
      intro t ht; obtain ⟨j, hj, _, _, rfl⟩ := hwm t ht; exact hlt _ (getD_mem hj)) (hrd _ hcm) with ⟨h1, x, hx, hx2⟩ | ⟨s, h1, h2, h3⟩
  · left
    rw [h1]
    refine ⟨rfl, ?_⟩
    rcases hx with hx | ⟨t, ht, hx⟩
    · exact ⟨_, hcm, x, hx, hx2⟩
    · obtain ⟨j, hj, _, _, rfl⟩ := hwm t ht
      exact ⟨_, getD_mem hj, x, hx, hx2⟩
  right
  rw [h1, Res.bind_ok]
  have hclr := clear_both h2
  cases hc1 : clearMarks g [commits.getD i 0] s.fl with
  | err e => rw [hc1] at hclr; cases hclr
  | ub => rw [hc1] at hclr; cases hclr
  | ok fl1 =>
    rw [hc1, Res.bind_ok] at hclr
    rw [Res.bind_ok, hclr, Res.bind_ok]
    obtain ⟨f1, f2, f3⟩ := fold_marks (fl := s.fl) (workOf commits r i) (if (s.fl (commits.getD i 0)).p2 = true then r.set i true else r)
    refine ⟨_, rfl, ⟨?_, ?_⟩, ?_, ?_⟩
    · rw [f1]; split
      · rw [List.length_set]; exact hr.1
      · exact hr.1
    · intro j hj hm
      rcases f3 j hm with h | ⟨w, hw, rfl, h⟩
      · by_cases hp : (s.fl (commits.getD i 0)).p2 = true
        · rw [if_pos hp, getD_set] at h
          by_cases hij : i = j
          · subst hij
            obtain ⟨t, ht, hrt⟩ := h2.p2 _ hp
            obtain ⟨k, hk, hki, _, rfl⟩ := hwm t ht
            exact ⟨_, getD_mem hk, hrt.proper_of_ne (fun e => hki (getD_inj hnd hk hi e))⟩
          · rw [if_neg (by rintro ⟨a, _⟩; exact hij a)] at h; exact hr.2 j hj h
        · rw [if_neg hp] at h; exact hr.2 j hj h
      · obtain ⟨a, b, _, d⟩ := mem_work.1 hw
        rw [d] at h
        exact ⟨_, hcm, (h2.p1 _ h).proper_of_ne (fun e => b (getD_inj hnd hi a e).symm)⟩
    · intro j hj
      apply f2
      split
      · rw [getD_set]; split
        · rfl
        · exact hj
      · exact hj
    · rintro ⟨y, hy, hp⟩
      apply f2
      have : (s.fl (commits.getD i 0)).p2 = true := by
        rw [one_p2 hac h2 h3]
        obtain ⟨m, hm, hmr, hmax⟩ := exists_maximal hac hy
        obtain ⟨j, hj, rfl⟩ := mem_getD hm
        have hpj : Proper g (commits.getD j 0) (commits.getD i 0) := hmr.trans_proper hp
        refine ⟨commits.getD j 0, List.mem_map.2 ⟨(j, commits.getD j 0), mem_work.2 ⟨hj, ?_, ?_, rfl⟩, rfl⟩, hpj.reaches⟩
        · rintro rfl; exact hac _ hpj
        · by_cases hb : r.getD j false = true
          · obtain ⟨z, hz, hzp⟩ := hr.2 j hj hb
            exact absurd hzp (hmax z hz)
          · simpa using hb
      rw [if_pos this, getD_set, if_pos ⟨rfl, by rw [hr.1]; exact hi⟩]

theorem redundantLoop_ok {g : Repo} (hcl : Closed g) (hac : Acyclic g) {commits : List Nat} (hnd : commits.Nodup) (hlt : ∀ c ∈ commits, c < g.n)
    (hrd : ∀ c ∈ commits, ∃ ps, g.parents c = some ps) : ∀ (is : List Nat) (r : List Bool), (∀ i ∈ is, i < commits.length) → Sound g commits r →
    (redundantLoop g commits is r clean = .err (-1) ∧ ∃ c ∈ commits, ∃ x, Reaches g c x ∧ g.parents x = none) ∨
    ∃ r', redundantLoop g commits is r clean = .ok r' ∧ Sound g commits r' ∧ (∀ j, r.getD j false = true → r'.getD j false = true) ∧
      ∀ i ∈ is, (∃ y ∈ commits, Proper g y (commits.getD i 0)) → r'.getD i false = true
  | [], r, _, hr => .inr ⟨r, rfl, hr, fun _ h => h, by simp⟩
  | i :: is, r, hm, hr => by
    rw [redundantLoop]
    rcases step_ok hcl hac hnd hlt hrd (hm i (by simp)) hr with ⟨h1, h2⟩ | ⟨r1, h1, h2, h3, h4⟩
    · left; rw [h1]; exact ⟨rfl, h2⟩
    · rw [h1, Res.bind_ok]
      rcases redundantLoop_ok hcl hac hnd hlt hrd is r1 (fun j hj => hm j (by simp [hj])) h2 with k | ⟨r2, k1, k2, k3, k4⟩
      · exact .inl k
      · refine .inr ⟨r2, k1, k2, fun j hj => k3 j (h3 j hj), ?_⟩
        intro j hj hy
        rcases List.mem_cons.1 hj with rfl | hj
        · exact k3 j (h4 hy)
        · exact k4 j hj hy

theorem nodup_map_getD {l : List Nat} (hn : l.Nodup) {is : List Nat} (his : is.Nodup) (hlt : ∀ i ∈ is, i < l.length) : (is.map fun j => l.getD j 0).Nodup := by
  induction is with
  | nil => exact List.nodup_nil
  | cons i is ih =>
    rw [List.map_cons, List.nodup_cons]
    rw [List.nodup_cons] at his
    refine ⟨?_, ih his.2 (fun j hj => hlt j (by simp [hj]))⟩
    intro hm
    obtain ⟨j, hj, e⟩ := List.mem_map.1 hm
    have := getD_inj hn (hlt j (by simp [hj])) (hlt i (by simp)) e
    rw [this] at hj; exact his.1 hj

/-- `remove_redundant` on clean marks keeps exactly the commits that are not ancestors of others -/
theorem removeRedundant_ok {g : Repo} (hcl : Closed g) (hac : Acyclic g) {commits : List Nat} (hnd : commits.Nodup) (hlt : ∀ c ∈ commits, c < g.n)
    (hrd : ∀ c ∈ commits, ∃ ps, g.parents c = some ps) :
    (removeRedundant g clean commits = .err (-1) ∧ ∃ c ∈ commits, ∃ x, Reaches g c x ∧ g.parents x = none) ∨
    ∃ l, removeRedundant g clean commits = .ok l ∧ l.Nodup ∧ ∀ x, x ∈ l ↔ x ∈ commits ∧ ∀ y ∈ commits, ¬Proper g y x := by
  unfold removeRedundant
  rw [if_pos (by rw [List.all_eq_true]; intro c hc; obtain ⟨ps, h⟩ := hrd c hc; rw [h]; rfl)]
  have hs : Sound g commits (List.replicate commits.length false) := by
    refine ⟨List.length_replicate, ?_⟩
    intro j hj h
    simp [List.getD_eq_getElem?_getD, hj] at h
  rcases redundantLoop_ok hcl hac hnd hlt hrd (List.range commits.length) _ (fun i hi => List.mem_range.1 hi) hs with ⟨h1, h2⟩ | ⟨r, h1, h2, _, h4⟩
  · left; rw [h1]; exact ⟨rfl, h2⟩
  · right
    rw [h1, Res.bind_ok]
    refine ⟨_, rfl, ?_, ?_⟩
    · exact nodup_map_getD hnd (List.nodup_range.filter _) (fun i hi => List.mem_range.1 (List.mem_filter.1 hi).1)
    · intro x
      rw [List.mem_map]
      constructor
      · rintro ⟨j, hj, rfl⟩
        rw [List.mem_filter, List.mem_range] at hj
        refine ⟨getD_mem hj.1, ?_⟩
        intro y hy hp
        have := h4 j (List.mem_range.2 hj.1) ⟨y, hy, hp⟩
        rw [this] at hj
        simp at hj
      · rintro ⟨hx, hmax⟩
        obtain ⟨j, hj, rfl⟩ := mem_getD hx
        refine ⟨j, ?_, rfl⟩
        rw [List.mem_filter, List.mem_range]
        refine ⟨hj, ?_⟩
        by_cases hb : r.getD j false = true
        · obtain ⟨y, hy, hp⟩ := h2.2 j hj hb
          exact absurd hp (hmax y hy)
        · simp only [Bool.not_eq_true] at hb
          rw [hb]; rfl

end Verif.Graph
