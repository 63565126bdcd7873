import Verif.Revwalk.Lemmas2
import Verif.Revwalk.Spec
/-! # The loops of limited and unlimited walks -/
namespace Verif.Revwalk
open Graph (Repo Reaches Proper Closed insertByDate edges timeCmp)
open Spec (NotNewer)

variable {g : Repo} {o : Opts} {H P : Nat → Prop}

/-- the order of the list, and of what was taken off it, by date; `T` is the date of the last of those -/
structure Dated (g : Repo) (S : Nat → Prop) (s : WS) (l : List Nat) (T : Int) (out : List Nat) : Prop where
  sorted : l.Pairwise fun e y => S y → g.time e ≥ g.time y
  fresh : ∀ y, s.seen y = false → S y
  start : out = [] → ∀ y ∈ l, ∀ z ∈ l, s.unint y = false → s.unint z = false → S y ∨ y = z
  going : out ≠ [] → ∀ y ∈ l, s.unint y = false → S y ∧ g.time y ≤ T
  above : ∀ x ∈ out, g.time x ≥ T

theorem insert_sorted {S : Nat → Prop} {c : Nat} : ∀ {l : List Nat}, (l.Pairwise fun e y => S y → g.time e ≥ g.time y) →
    (insertByDate g c l).Pairwise fun e y => S y → g.time e ≥ g.time y
  | [], _ => by rw [insertByDate]; exact List.pairwise_singleton _ _
  | p :: l, h => by
    rw [insertByDate]
    have hp := List.pairwise_cons.1 h
    by_cases hc : timeCmp g p c > 0
    · rw [if_pos hc]
      rw [Graph.timeCmp_pos] at hc
      refine List.pairwise_cons.2 ⟨?_, h⟩
      intro x hx hS
      rcases List.mem_cons.1 hx with rfl | hx
      · omega
      · have := hp.1 x hx hS; omega
    · rw [if_neg hc]
      rw [Graph.timeCmp_pos] at hc
      refine List.pairwise_cons.2 ⟨?_, insert_sorted hp.2⟩
      intro x hx hS
      rw [(Graph.insertByDate_perm g c l).mem_iff] at hx
      rcases List.mem_cons.1 hx with rfl | hx
      · omega
      · exact hp.1 x hx hS

theorem fold_sorted {S : Nat → Prop} : ∀ (A l : List Nat), (l.Pairwise fun e y => S y → g.time e ≥ g.time y) →
    (A.foldl (fun l p => insertByDate g p l) l).Pairwise fun e y => S y → g.time e ≥ g.time y
  | [], _, h => h
  | _ :: A, _, h => fold_sorted A _ (insert_sorted h)

theorem mem_fold {A l : List Nat} {x : Nat} : x ∈ A.foldl (fun l p => insertByDate g p l) l ↔ x ∈ A ∨ x ∈ l := by
  rw [(fold_perm g A l).mem_iff, List.mem_append]

/-- taking an uninteresting commit off -/
theorem Dated.hide {S : Nat → Prop} {s s' : WS} {c : Nat} {rest A out : List Nat} {T : Int} (hd : Dated g S s (c :: rest) T out) (hA : ∀ x ∈ A, s'.unint x = true)
    (hu : ∀ x, s.unint x = true → s'.unint x = true) (hs : ∀ x, s.seen x = true → s'.seen x = true) :
    Dated g S s' (A.foldl (fun l p => insertByDate g p l) rest) T out := by
  have hu' : ∀ x, s'.unint x = false → s.unint x = false := by
    intro x hx
    cases h : s.unint x with
    | false => rfl
    | true => rw [hu x h] at hx; cases hx
  have hm : ∀ y ∈ A.foldl (fun l p => insertByDate g p l) rest, s'.unint y = false → y ∈ c :: rest := by
    intro y hy h
    rcases mem_fold.1 hy with hy | hy
    · rw [hA y hy] at h; cases h
    · simp [hy]
  refine ⟨fold_sorted A rest (List.pairwise_cons.1 hd.sorted).2, ?_, ?_, ?_, hd.above⟩
  · intro y hy
    refine hd.fresh y ?_
    cases h : s.seen y with
    | false => rfl
    | true => rw [hs y h] at hy; cases hy
  · intro e y hy z hz h1 h2
    exact hd.start e y (hm y hy h1) z (hm z hz h2) (hu' y h1) (hu' z h2)
  · intro e y hy h
    exact hd.going e y (hm y hy h) (hu' y h)

/-- marking more commits -/
theorem Dated.marked {S : Nat → Prop} {s s' : WS} {l out : List Nat} {T : Int} (hd : Dated g S s l T out)
    (hu : ∀ x, s.unint x = true → s'.unint x = true) (hs : ∀ x, s.seen x = true → s'.seen x = true) : Dated g S s' l T out := by
  have hu' : ∀ x, s'.unint x = false → s.unint x = false := by
    intro x hx
    cases h : s.unint x with
    | false => rfl
    | true => rw [hu x h] at hx; cases hx
  refine ⟨hd.sorted, ?_, ?_, ?_, hd.above⟩
  · intro y hy
    refine hd.fresh y ?_
    cases h : s.seen y with
    | false => rfl
    | true => rw [hs y h] at hy; cases hy
  · intro e y hy z hz h1 h2
    exact hd.start e y hy z hz (hu' y h1) (hu' z h2)
  · intro e y hy h
    exact hd.going e y hy (hu' y h)

/-- taking an interesting commit off; it is listed -/
theorem Dated.show {S : Nat → Prop} {s s' : WS} {c : Nat} {rest A out : List Nat} {T : Int} (hn : NotNewer g) (hd : Dated g S s (c :: rest) T out)
    (hc : s.unint c = false) (hA : ∀ x ∈ A, x ∈ kids g s c ∧ s.seen x = false) (hcr : c ∉ rest)
    (hu : s'.unint = s.unint) (hs : ∀ x, s.seen x = true → s'.seen x = true) :
    Dated g S s' (A.foldl (fun l p => insertByDate g p l) rest) (g.time c) (c :: out) := by
  refine ⟨fold_sorted A rest (List.pairwise_cons.1 hd.sorted).2, ?_, fun e => (by cases e), ?_, ?_⟩
  · intro y hy
    refine hd.fresh y ?_
    cases h : s.seen y with
    | false => rfl
    | true => rw [hs y h] at hy; cases hy
  · intro _ y hy h
    rw [hu] at h
    rcases mem_fold.1 hy with hy | hy
    · obtain ⟨h1, h2⟩ := hA y hy
      obtain ⟨_, ps, k1, k2⟩ := kids_parent h1
      exact ⟨hd.fresh y h2, hn c ps y k1 k2⟩
    · have hS : S y := by
        by_cases ho : out = []
        · rcases hd.start ho y (by simp [hy]) c (by simp) h hc with h | h
          · exact h
          · subst h; exact absurd hy hcr
        · exact (hd.going ho y (by simp [hy]) h).1
      exact ⟨hS, (List.pairwise_cons.1 hd.sorted).1 y hy hS⟩
  · intro x hx
    rcases List.mem_cons.1 hx with rfl | hx
    · exact Int.le_refl _
    · have ho : out ≠ [] := by rintro rfl; cases hx
      have h1 := (hd.going ho c (by simp) hc).2
      have h2 := hd.above x hx
      omega

/-- why the loop ended -/
def Ended (g : Repo) (s : WS) (l : List Nat) (T : Int) : Prop :=
  l = [] ∨ ((∀ y ∈ l, s.unint y = true ∧ g.time y ≤ T) ∧ ∀ h, l.head? = some h → g.time h < T)

theorem stillInteresting_zero {s : WS} {l : List Nat} {T : Int} {slop : Nat} (h : stillInteresting g s l T slop = 0) : Ended g s l T := by
  unfold stillInteresting at h
  cases l with
  | nil => exact .inl rfl
  | cons x l =>
    right
    simp only at h
    by_cases h1 : T ≤ g.time x
    · rw [if_pos h1] at h; cases h
    · rw [if_neg h1] at h
      by_cases h2 : ((x :: l).any fun c => !s.unint c || decide (g.time c > T)) = true
      · rw [if_pos h2] at h; cases h
      · refine ⟨?_, ?_⟩
        · intro y hy
          rw [List.any_eq_true] at h2
          constructor
          · cases hb : s.unint y with
            | true => rfl
            | false => exact absurd ⟨y, hy, by simp [hb]⟩ h2
          · by_cases ht : g.time y > T
            · exact absurd ⟨y, hy, by simp [ht]⟩ h2
            · omega
        · intro z hz
          simp only [List.head?_cons, Option.some.injEq] at hz
          subst hz; omega

theorem Inv.not_mem_rest {s : WS} {c : Nat} {rest out : List Nat} (hi : Inv g o H P s (c :: rest) out) (hu : s.unint c = false) : c ∉ rest := by
  intro h
  have := hi.cnt c hu
  rw [List.count_append, List.count_cons_self] at this
  have := List.one_le_count_iff.2 h
  omega

theorem fold_length (A l : List Nat) : (A.foldl (fun l p => insertByDate g p l) l).length = A.length + l.length := by
  rw [(fold_perm g A l).length_eq, List.length_append]

theorem limitLoop_ok {S : Nat → Prop} {D : Prop} (hD : D → NotNewer g ∧ o.hideCb = none) (hcl : Closed g) : ∀ (fuel : Nat) (l : List Nat) (s : WS) (slop : Nat) (T : Int) (out : List Nat),
    Inv g o H P s l out → (D → Dated g S s l T out) → l.length + pend g s.added ≤ fuel →
    (limitLoop g o fuel l s slop T out = .err (-1) ∧ Missing g H P) ∨
    ∃ s' l' T' out', limitLoop g o fuel l s slop T out = .ok (s', out'.reverse) ∧ Inv g o H P s' l' out' ∧ (D → Dated g S s' l' T' out') ∧ Ended g s' l' T'
  | fuel, [], s, slop, T, out, hi, hd, _ => .inr ⟨s, [], T, out, by cases fuel <;> rfl, hi, hd, .inl rfl⟩
  | 0, _ :: _, _, _, _, _, _, _, h => by simp at h
  | fuel + 1, c :: rest, s, slop, T, out, hi, hd, hf => by
    rw [limitLoop]
    rw [List.length_cons] at hf
    rcases addParents_ok hcl hi with ⟨h1, h2⟩ | ⟨s1, A, h1, h2, h3, h4, h5, h6⟩
    · left; rw [h1]; exact ⟨rfl, h2⟩
    rw [h1, Res.bind_ok]
    have hlen := fold_length (g := g) A rest
    rcases h6 with ⟨k1, k2, k3, k4⟩ | ⟨k1, k2, k3, k4⟩
    · simp only
      rw [if_pos k2]
      obtain ⟨s2, m1, m2⟩ := markParents_ok hcl (hi.lt c (by simp)) s1
      rw [m1, Res.bind_ok]
      have hi2 := k4.marked k2 m2
      have hd2 : D → Dated g S s2 (A.foldl (fun l p => insertByDate g p l) rest) T out := fun hn =>
        ((hd hn).hide k3 h4 h5).marked m2.mono (fun x hx => by rw [m2.seen]; exact hx)
      by_cases hz : stillInteresting g s2 (A.foldl (fun l p => insertByDate g p l) rest) T slop = 0
      · rw [if_pos hz]
        exact .inr ⟨s2, _, T, out, rfl, hi2, hd2, stillInteresting_zero hz⟩
      · rw [if_neg hz]
        exact limitLoop_ok hD hcl fuel _ s2 _ T out hi2 hd2 (by rw [m2.added, hlen]; omega)
    · simp only
      rw [if_neg (by rw [k2, k1]; exact Bool.false_ne_true)]
      by_cases hh : o.hides c = true
      · rw [if_pos hh]
        have hcb : o.hideCb ≠ none := by
          intro e; unfold Opts.hides at hh; rw [e] at hh; cases hh
        exact limitLoop_ok hD hcl fuel _ s1 slop T out (k4.drop hcb) (fun e => absurd (hD e).2 hcb) (by rw [hlen]; omega)
      · rw [if_neg hh]
        exact limitLoop_ok hD hcl fuel _ s1 slop (g.time c) (c :: out) k4
          (fun hn => (hd hn).show (hD hn).1 k1 (fun x hx => ⟨h2 x hx, k3 x hx⟩) (hi.not_mem_rest k1) k2 h5) (by rw [hlen]; omega)

theorem lazyLoop_ok (hcl : Closed g) : ∀ (fuel : Nat) (l : List Nat) (s : WS) (out : List Nat), (∀ c, s.unint c = false) →
    Inv g o H P s l out → l.length + pend g s.added ≤ fuel →
    (lazyLoop g o fuel l s out = .err (-1) ∧ Missing g H P) ∨
    ∃ s' out', lazyLoop g o fuel l s out = .ok (s', out'.reverse) ∧ Inv g o H P s' [] out' ∧ ∀ c, s'.unint c = false
  | fuel, [], s, out, hu, hi, _ => .inr ⟨s, out, by cases fuel <;> rfl, hi, hu⟩
  | 0, _ :: _, _, _, _, _, h => by simp at h
  | fuel + 1, c :: rest, s, out, hu, hi, hf => by
    rw [lazyLoop]
    rw [List.length_cons] at hf
    rcases addParents_ok hcl hi with ⟨h1, h2⟩ | ⟨s1, A, h1, h2, h3, h4, h5, h6⟩
    · left; rw [h1]; exact ⟨rfl, h2⟩
    rw [h1, Res.bind_ok]
    have hlen := fold_length (g := g) A rest
    rcases h6 with ⟨k1, _⟩ | ⟨k1, k2, k3, k4⟩
    · rw [hu c] at k1; cases k1
    · exact lazyLoop_ok hcl fuel _ s1 (c :: out) (fun x => by rw [k2]; exact hu x) k4 (by simp only; rw [hlen]; omega)

/-! ### what was found in the end -/

/-- what holds of a commit and is handed on along the way to `x` holds of `x` -/
theorem Reaches.carry {Q : Nat → Prop} {x y : Nat} (hr : Reaches g y x) : Q y →
    (∀ c ps p, Q c → g.parents c = some ps → p ∈ ps → Reaches g p x → Q p) → Q x := by
  induction hr with
  | refl => intro h _; exact h
  | step h1 h2 h3 ih => intro h hs; exact ih (hs _ _ _ h h1 h2 h3) hs

/-- all that is reachable from a pushed commit and not from a hidden one is there -/
theorem Inv.complete {s : WS} {l out : List Nat} {T : Int} (hi : Inv g o H P s l out) (he : Ended g s l T) (hcb : o.hideCb = none) (hfp : o.firstParent = false)
    {p x : Nat} (hp : P p) (hr : Reaches g p x) (hx : ∀ h, H h → ¬Reaches g h x) : x ∈ out ∧ s.unint x = false := by
  have hall : ∀ y, s.seen y = true → Reaches g y x → s.added y = true ∧ s.unint y = false := by
    intro y hs hr
    have hu : s.unint y = false := by
      cases hu : s.unint y with
      | false => rfl
      | true => obtain ⟨h, h1, h2⟩ := hi.ur y hu; exact absurd (h2.trans hr) (hx h h1)
    refine ⟨?_, hu⟩
    rcases hi.sl y hs with h | h
    · rcases he with rfl | he
      · cases h
      · rw [(he.1 y h).1] at hu; cases hu
    · exact h
  have hxs : s.seen x = true := Reaches.carry (Q := fun y => s.seen y = true) hr (hi.pu p hp) (fun c ps q hc h1 h2 h3 =>
    hi.as hcb hfp c ps q (hall c hc (.step h1 h2 h3)).1 h1 h2)
  obtain ⟨h1, h2⟩ := hall x hxs (.refl x)
  refine ⟨?_, h2⟩
  rcases hi.ao hcb x h1 with h | h
  · rw [h2] at h; cases h
  · exact h

/-- With dates that can be relied on, nothing that is reachable from a hidden commit is left. -/
theorem Inv.exact {S : Nat → Prop} {s : WS} {l out : List Nat} {T : Int} (hi : Inv g o H P s l out) (he : Ended g s l T) (hcb : o.hideCb = none) (hfp : o.firstParent = false)
    (hd : Dated g S s l T out) (hn : NotNewer g) (hstrict : (∀ y, S y) ∨ ∀ c x, Proper g c x → g.time x < g.time c)
    {h x : Nat} (hh : H h) (hr : Reaches g h x) (hx : x ∈ out) : s.unint x = true := by
  have hle : ∀ c x, Reaches g c x → g.time x ≤ g.time c := by
    intro c x hr
    induction hr with
    | refl => exact Int.le_refl _
    | step h1 h2 _ ih => have := hn _ _ _ h1 h2; omega
  have hT := hd.above x hx
  -- what is on the way from `h` to `x`
  have key : s.seen x = true ∧ s.unint x = true := Reaches.carry (Q := fun y => s.seen y = true ∧ s.unint y = true) hr ⟨(hi.hu h hh).2, (hi.hu h hh).1⟩ (by
    rintro c ps p ⟨hc1, hc2⟩ h1 h2 h3
    have hadd : s.added c = true := by
      rcases hi.sl c hc1 with hm | hm
      · -- left in the list: too old
        exfalso
        have hpr : Proper g c x := ⟨ps, p, h1, h2, h3⟩
        rcases he with rfl | he
        · cases hm
        · have ht := (he.1 c hm).2
          rcases hstrict with hS | hS
          · have : g.time c < T := by
              cases l with
              | nil => cases hm
              | cons a l =>
                have ha := he.2 a rfl
                rcases List.mem_cons.1 hm with rfl | hm
                · exact ha
                · have := (List.pairwise_cons.1 hd.sorted).1 c hm (hS c)
                  omega
            have := hle c x hpr.reaches
            omega
          · have := hS c x hpr
            omega
      · exact hm
    exact ⟨hi.as hcb hfp c ps p hadd h1 h2, hi.ua c ps p hc2 hadd h1 h2⟩)
  exact key.2

end Verif.Revwalk
