import Verif.Graph.Spec
import Verif.PQueue.Props
import Verif.PQueue.Perm
/-! # The painting loop -/
namespace Verif.Graph
open PQueue (PQ Heap)
open PQueue.Spec (Preorder)

theorem Reaches.trans {g : Repo} {a b c : Nat} (h1 : Reaches g a b) (h2 : Reaches g b c) : Reaches g a c := by
  induction h1 with
  | refl => exact h2
  | step hp hm _ ih => exact .step hp hm (ih h2)

theorem Proper.trans {g : Repo} {a b c : Nat} (h1 : Proper g a b) (h2 : Reaches g b c) : Proper g a c := by
  obtain ⟨ps, p, hp, hm, hr⟩ := h1
  exact ⟨ps, p, hp, hm, hr.trans h2⟩

theorem Proper.reaches {g : Repo} {a b : Nat} (h : Proper g a b) : Reaches g a b := by
  obtain ⟨ps, p, hp, hm, hr⟩ := h
  exact .step hp hm hr

theorem Reaches.trans_proper {g : Repo} {a b c : Nat} (h1 : Reaches g a b) (h2 : Proper g b c) : Proper g a c := by
  cases h1 with
  | refl => exact h2
  | step hp hm hr => exact ⟨_, _, hp, hm, hr.trans h2.reaches⟩

theorem Reaches.proper_of_ne {g : Repo} {a b : Nat} (h : Reaches g a b) (hn : a ≠ b) : Proper g a b := by
  cases h with
  | refl => exact absurd rfl hn
  | step hp hm hr => exact ⟨_, _, hp, hm, hr⟩

theorem Acyclic.antisymm {g : Repo} (ha : Acyclic g) {a b : Nat} (h1 : Reaches g a b) (h2 : Reaches g b a) : a = b := by
  by_cases hn : a = b
  · exact hn
  · exact absurd ((h1.proper_of_ne hn).trans h2) (ha a)

/-! ### the queue -/

theorem insert_both {q : PQ Nat} {cmp : Nat → Nat → Int} (hq : q.cmp = some cmp) (hcap : q.cap = none) (x : Nat) :
    ∃ q', PQueue.insert q x = some q' ∧ q'.cmp = some cmp ∧ q'.cap = none ∧ q'.contents.Perm (x :: q.contents) ∧
      (Preorder cmp → Heap cmp q.contents → Heap cmp q'.contents) := by
  obtain ⟨q', h1, h2, h3, h4⟩ := PQueue.insert_perm hq hcap x
  refine ⟨q', h1, h2, h3, h4, ?_⟩
  intro hc hh
  obtain ⟨q'', g1, _, _, _, g5⟩ := PQueue.insert_room hc hq hh (by rw [hcap]; intro n h; cases h) x
  rw [h1] at g1
  cases g1
  exact g5

theorem pop_both {q : PQ Nat} {cmp : Nat → Nat → Int} (hq : q.cmp = some cmp) :
    (PQueue.pop q).2.cmp = some cmp ∧ (PQueue.pop q).2.cap = q.cap ∧
    ((q.contents = [] ∧ (PQueue.pop q).1 = none) ∨ ∃ m, (PQueue.pop q).1 = some m ∧ q.contents.Perm (m :: (PQueue.pop q).2.contents) ∧
      (Preorder cmp → Heap cmp q.contents → Heap cmp (PQueue.pop q).2.contents ∧ ∀ x ∈ (PQueue.pop q).2.contents, cmp m x ≤ 0)) := by
  obtain ⟨h1, h2, h3⟩ := PQueue.pop_perm hq
  refine ⟨h1, h2, ?_⟩
  rcases h3 with ⟨h3, h4, _⟩ | ⟨m, h3, h4⟩
  · exact .inl ⟨h3, h4⟩
  · refine .inr ⟨m, h3, h4, ?_⟩
    intro hc hh
    obtain ⟨_, _, g3, g4⟩ := PQueue.pop_cases hc hq hh
    refine ⟨g3, ?_⟩
    rcases g4 with ⟨g4, g5, _⟩ | ⟨m', _, g5, _, g6⟩
    · rw [h3] at g5; cases g5
    · rw [h3] at g5; cases g5; exact g6

/-! ### sums over all commits -/

theorem sum_upd {α : Type} (w : α → Nat) (fl : Nat → α) (c : Nat) (f : α) : ∀ (n : Nat), c < n →
    ((List.range n).map fun x => w ((fun y => if y = c then f else fl y) x)).sum + w (fl c) = ((List.range n).map fun x => w (fl x)).sum + w f := by
  have hlow : ∀ n, n ≤ c → ((List.range n).map fun x => w ((fun y => if y = c then f else fl y) x)).sum = ((List.range n).map fun x => w (fl x)).sum := by
    intro n hn
    congr 1
    apply List.map_congr_left
    intro x hx
    rw [List.mem_range] at hx
    simp only
    rw [if_neg (by omega)]
  intro n
  induction n with
  | zero => intro h; omega
  | succ n ih =>
    intro h
    rw [List.range_succ, List.map_append, List.map_append, List.sum_append, List.sum_append]
    simp only [List.map_cons, List.map_nil, List.sum_cons, List.sum_nil, Nat.add_zero]
    by_cases hc : c = n
    · subst hc
      have := hlow c (Nat.le_refl _)
      simp only at this
      rw [this, if_pos rfl]; omega
    · have := ih (by omega)
      simp only at this
      rw [if_neg (Ne.symm hc)]; omega

/-- the flags a commit may still get -/
def weight (f : Flags) : Nat := (if f.p1 then 0 else 1) + (if f.p2 then 0 else 1) + (if f.stale then 0 else 1)

/-- all of them -/
def pot (g : Repo) (fl : Marks) : Nat := ((List.range g.n).map fun x => weight (fl x)).sum

theorem pot_upd (g : Repo) (fl : Marks) {c : Nat} (h : c < g.n) (f : Flags) : pot g (upd fl c f) + weight (fl c) = pot g fl + weight f :=
  sum_upd weight fl c f g.n h

theorem pot_le (g : Repo) (fl : Marks) : pot g fl ≤ 3 * g.n := by
  unfold pot
  generalize g.n = n
  induction n with
  | zero => simp
  | succ n ih =>
    rw [List.range_succ, List.map_append, List.sum_append]
    simp only [List.map_cons, List.map_nil, List.sum_cons, List.sum_nil]
    have : weight (fl n) ≤ 3 := by unfold weight; split <;> split <;> split <;> omega
    omega

theorem weight_or {a b : Flags} (hb : b.result = false) (h : a.has b = false) : weight (a.or b) + 1 ≤ weight a := by
  obtain ⟨a1, a2, a3, a4⟩ := a
  obtain ⟨b1, b2, b3, b4⟩ := b
  simp only at hb
  subst hb
  revert h
  cases a1 <;> cases a2 <;> cases a3 <;> cases a4 <;> cases b1 <;> cases b2 <;> cases b4 <;> decide

theorem has_iff {a b : Flags} : a.has b = true ↔ (b.p1 = true → a.p1 = true) ∧ (b.p2 = true → a.p2 = true) ∧ (b.result = true → a.result = true) ∧ (b.stale = true → a.stale = true) := by
  obtain ⟨a1, a2, a3, a4⟩ := a
  obtain ⟨b1, b2, b3, b4⟩ := b
  simp only [Flags.has]
  cases a1 <;> cases a2 <;> cases a3 <;> cases a4 <;> cases b1 <;> cases b2 <;> cases b3 <;> cases b4 <;> decide

theorem has_or (a b : Flags) : (a.or b).has b = true := by
  rw [has_iff]; simp only [Flags.or, Bool.or_eq_true]
  exact ⟨.inr, .inr, .inr, .inr⟩

/-- what painting the parents does -/
theorem paintParents_ok {g : Repo} {F : Flags} (hF : F.result = false) {cmp : Nat → Nat → Int} :
    ∀ (ps : List Nat) (q : PQ Nat) (fl : Marks), q.cmp = some cmp → q.cap = none → (∀ p ∈ ps, p < g.n) →
    (paintParents g F ps q fl = .err (-1) ∧ ∃ p ∈ ps, g.parents p = none) ∨
    ∃ q' fl' added, paintParents g F ps q fl = .ok (q', fl') ∧ q'.cmp = some cmp ∧ q'.cap = none ∧ q'.contents.Perm (added ++ q.contents) ∧
      (Preorder cmp → Heap cmp q.contents → Heap cmp q'.contents) ∧
      (∀ c, fl' c = fl c ∨ (c ∈ added ∧ fl' c = (fl c).or F)) ∧
      (∀ p ∈ ps, (fl' p).has F = true) ∧
      (∀ a ∈ added, a ∈ ps ∧ (∃ x, g.parents a = some x) ∧ fl' a = (fl a).or F) ∧
      added.length + pot g fl' ≤ pot g fl
  | [], q, fl, hq, hcap, _ => .inr ⟨q, fl, [], rfl, hq, hcap, List.Perm.refl _, fun _ h => h, fun _ => .inl rfl, by simp, by simp, by simp⟩
  | p :: ps, q, fl, hq, hcap, hn => by
    rw [paintParents]
    by_cases hh : (fl p).has F = true
    · rw [if_pos hh]
      rcases paintParents_ok hF ps q fl hq hcap (fun x hx => hn x (by simp [hx])) with ⟨h1, p', hp', h2⟩ | ⟨q', fl', added, h1, h2, h3, h4, h5, h6, h7, h8, h9⟩
      · exact .inl ⟨h1, p', by simp [hp'], h2⟩
      · refine .inr ⟨q', fl', added, h1, h2, h3, h4, h5, h6, ?_, fun a ha => ⟨by simp [(h8 a ha).1], (h8 a ha).2⟩, h9⟩
        intro x hx
        rcases List.mem_cons.1 hx with rfl | hx
        · rcases h6 x with e | ⟨_, e⟩
          · rw [e]; exact hh
          · rw [e]; exact has_or _ _
        · exact h7 x hx
    · rw [if_neg hh]
      cases hp : g.parents p with
      | none => exact .inl ⟨rfl, p, by simp, hp⟩
      | some x =>
        obtain ⟨q1, i1, i2, i3, i4, i5⟩ := insert_both hq hcap p
        simp only [i1]
        have hw := weight_or hF (by simpa using hh)
        have hpot := pot_upd g fl (hn p (by simp)) ((fl p).or F)
        rcases paintParents_ok hF ps q1 (upd fl p ((fl p).or F)) i2 i3 (fun x hx => hn x (by simp [hx])) with ⟨h1, p', hp', h2⟩ | ⟨q', fl', added, h1, h2, h3, h4, h5, h6, h7, h8, h9⟩
        · exact .inl ⟨h1, p', by simp [hp'], h2⟩
        · have hor : ∀ f : Flags, (f.or F).or F = f.or F := by
            intro f; simp only [Flags.or, Bool.or_assoc, Bool.or_self]
          have hpp : fl' p = (fl p).or F := by
            rcases h6 p with e | ⟨_, e⟩
            · rw [e]; unfold upd; rw [if_pos rfl]
            · rw [e]; unfold upd; rw [if_pos rfl, hor]
          refine .inr ⟨q', fl', p :: added, h1, h2, h3, ?_, fun hc hh => h5 hc (i5 hc hh), ?_, ?_, ?_, ?_⟩
          · refine h4.trans ((i4.append_left added).trans ?_)
            exact List.perm_middle
          · intro c
            by_cases hc : c = p
            · subst hc; exact .inr ⟨by simp, hpp⟩
            · rcases h6 c with e | ⟨m, e⟩
              · left; rw [e]; unfold upd; rw [if_neg hc]
              · right; refine ⟨by simp [m], ?_⟩; rw [e]; unfold upd; rw [if_neg hc]
          · intro x hx
            rcases List.mem_cons.1 hx with rfl | hx
            · rw [hpp]; exact has_or _ _
            · exact h7 x hx
          · intro a ha
            rcases List.mem_cons.1 ha with rfl | ha
            · exact ⟨by simp, ⟨x, hp⟩, hpp⟩
            · obtain ⟨k1, k2, k3⟩ := h8 a ha
              refine ⟨by simp [k1], k2, ?_⟩
              rw [k3]
              unfold upd
              by_cases hap : a = p
              · rw [if_pos hap, hor, hap]
              · rw [if_neg hap]
          · simp only [List.length_cons]; omega

end Verif.Graph
