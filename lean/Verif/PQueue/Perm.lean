import Verif.PQueue.Lemmas
/-! # What holds of the queue even if the comparison is not an order (`git_commit_list_generation_cmp` is none), and versions that compute -/
namespace Verif.PQueue

variable {α : Type} {cmp : α → α → Int}

theorem up_perm (el : Nat) : ∀ (l : List α) (kid : α), el < l.length → ∃ r, up cmp l el kid = some r ∧ r.Perm (l.set el kid) := by
  induction el using Nat.strongRecOn with
  | ind el ih =>
    intro l kid hl
    rw [up]
    by_cases h0 : el > 0
    · rw [dif_pos h0]
      have hpl : (el - 1) / 2 < l.length := by omega
      have hne : el ≠ (el - 1) / 2 := by omega
      have hp : l[(el - 1) / 2]? = some l[(el - 1) / 2] := List.getElem?_eq_getElem hpl
      generalize l[(el - 1) / 2] = parent at hp
      rw [hp]
      simp only
      by_cases hle : cmp parent kid ≤ 0
      · rw [if_pos hle]; exact ⟨_, rfl, List.Perm.refl _⟩
      · rw [if_neg hle]
        obtain ⟨r, h1, h2⟩ := ih ((el - 1) / 2) (by omega) (l.set el parent) kid (by simpa using hpl)
        exact ⟨r, h1, h2.trans (hole_perm hl hne hp)⟩
    · rw [dif_neg h0]; exact ⟨_, rfl, List.Perm.refl _⟩

theorem down_perm (n : Nat) : ∀ (l : List α) (el : Nat) (parent : α), l.length - el ≤ n → el < l.length →
    (down cmp l el parent).Perm (l.set el parent) := by
  induction n with
  | zero => intro l el parent h1 h2; omega
  | succ n ih =>
    intro l el parent hn hl
    rw [down]
    split
    · exact List.Perm.refl _
    · rename_i k kid hk
      obtain ⟨h1, h2, h3⟩ := kidOf_lt hk
      by_cases hle : cmp parent kid ≤ 0
      · rw [if_pos hle]
      · rw [if_neg hle]
        have := ih (l.set el kid) k parent (by simp only [List.length_set]; omega) (by simpa using h2)
        exact this.trans (hole_perm hl (by omega) h3)

theorem pop_perm {q : PQ α} (hq : q.cmp = some cmp) :
    (pop q).2.cmp = some cmp ∧ (pop q).2.cap = q.cap ∧
    ((q.contents = [] ∧ (pop q).1 = none ∧ (pop q).2.contents = []) ∨ ∃ m, (pop q).1 = some m ∧ q.contents.Perm (m :: (pop q).2.contents)) := by
  unfold pop
  rw [hq]
  obtain ⟨l, qc, cap⟩ := q
  subst hq
  cases l with
  | nil => exact ⟨rfl, rfl, .inl ⟨rfl, rfl, rfl⟩⟩
  | cons x rest =>
    simp only
    cases rest with
    | nil => exact ⟨rfl, rfl, .inr ⟨x, rfl, List.Perm.refl _⟩⟩
    | cons y rest =>
      rw [if_pos (by simp)]
      obtain ⟨last, hlast⟩ : ∃ last, (y :: rest).getLast? = some last := ⟨_, List.getLast?_eq_some_getLast (by simp)⟩
      rw [hlast]
      refine ⟨rfl, rfl, .inr ⟨x, rfl, ?_⟩⟩
      have hv : ((x :: y :: rest).set 0 last).dropLast = last :: (y :: rest).dropLast := by
        rw [List.set_cons_zero, List.dropLast_cons_of_ne_nil (by simp)]
      simp only [hv]
      have h1 := down_perm (cmp := cmp) (last :: (y :: rest).dropLast).length (last :: (y :: rest).dropLast) 0 last (by omega) (by simp)
      rw [List.set_cons_zero] at h1
      have hrest : y :: rest = (y :: rest).dropLast ++ [last] := by
        rw [List.getLast?_eq_some_getLast (by simp), Option.some.injEq] at hlast
        rw [← hlast]; exact (List.dropLast_concat_getLast (by simp)).symm
      refine List.Perm.cons x ?_
      refine List.Perm.trans ?_ h1.symm
      conv => lhs; rw [hrest]
      exact List.perm_append_singleton last _

theorem insert_perm {q : PQ α} (hq : q.cmp = some cmp) (hcap : q.cap = none) (x : α) :
    ∃ q', insert q x = some q' ∧ q'.cmp = some cmp ∧ q'.cap = none ∧ q'.contents.Perm (x :: q.contents) := by
  obtain ⟨r, h1, h2⟩ := up_perm (cmp := cmp) q.contents.length (q.contents ++ [x]) x (by simp)
  have hset : (q.contents ++ [x]).set q.contents.length x = q.contents ++ [x] := by simp
  rw [hset] at h2
  refine ⟨{ q with contents := r }, ?_, hq, hcap, h2.trans (List.perm_append_singleton x _)⟩
  unfold insert
  simp only [hq, h1, hcap, Option.map_some]

/-! ### versions that the kernel can evaluate -/

/-- `up` by recursion on a bound -/
def upF (cmp : α → α → Int) : Nat → List α → Nat → α → Option (List α)
  | 0, _, _, _ => none
  | f + 1, l, el, kid =>
    if el > 0 then
      match l[(el - 1) / 2]? with
      | none => none
      | some parent => if cmp parent kid ≤ 0 then some (l.set el kid) else upF cmp f (l.set el parent) ((el - 1) / 2) kid
    else some (l.set el kid)

theorem upF_eq : ∀ (f : Nat) (l : List α) (el : Nat) (kid : α), el < f → upF cmp f l el kid = up cmp l el kid
  | 0, _, _, _, h => by omega
  | f + 1, l, el, kid, h => by
    rw [upF, up]
    by_cases h0 : el > 0
    · rw [if_pos h0, dif_pos h0]
      cases l[(el - 1) / 2]? with
      | none => rfl
      | some parent =>
        simp only
        by_cases hle : cmp parent kid ≤ 0
        · rw [if_pos hle, if_pos hle]
        · rw [if_neg hle, if_neg hle]
          exact upF_eq f _ _ _ (by omega)
    · rw [if_neg h0, dif_neg h0]

/-- `down` by recursion on a bound -/
def downF (cmp : α → α → Int) : Nat → List α → Nat → α → List α
  | 0, l, _, _ => l
  | f + 1, l, el, parent =>
    match kidOf cmp l el with
    | none => l.set el parent
    | some (k, kid) => if cmp parent kid ≤ 0 then l.set el parent else downF cmp f (l.set el kid) k parent

theorem down_none {l : List α} {el : Nat} {parent : α} (h : kidOf cmp l el = none) : down cmp l el parent = l.set el parent := by
  rw [down]
  split
  · rfl
  · rename_i hk; rw [h] at hk; cases hk

theorem down_some {l : List α} {el k : Nat} {parent kid : α} (h : kidOf cmp l el = some (k, kid)) :
    down cmp l el parent = if cmp parent kid ≤ 0 then l.set el parent else down cmp (l.set el kid) k parent := by
  rw [down]
  split
  · rename_i hk; rw [h] at hk; cases hk
  · rename_i hk; rw [h] at hk; cases hk; rfl

theorem downF_eq : ∀ (f : Nat) (l : List α) (el : Nat) (parent : α), l.length - el < f → downF cmp f l el parent = down cmp l el parent
  | 0, _, _, _, h => by omega
  | f + 1, l, el, parent, h => by
    rw [downF]
    cases hk : kidOf cmp l el with
    | none => exact (down_none hk).symm
    | some kk =>
      obtain ⟨k, kid⟩ := kk
      rw [down_some hk]
      obtain ⟨h1, h2, _⟩ := kidOf_lt hk
      simp only
      by_cases hle : cmp parent kid ≤ 0
      · rw [if_pos hle, if_pos hle]
      · rw [if_neg hle, if_neg hle]
        exact downF_eq f _ _ _ (by simp only [List.length_set]; omega)

/-- `insert` without a size limit, by recursion on a bound -/
def insertF (q : PQ α) (x : α) : Option (PQ α) :=
  match q.cmp with
  | none => some { q with contents := q.contents ++ [x] }
  | some cmp => (upF cmp (q.contents.length + 1) (q.contents ++ [x]) q.contents.length x).map (fun l => { q with contents := l })

theorem insertF_eq {q : PQ α} (hcap : q.cap = none) (x : α) : insert q x = insertF q x := by
  unfold insert insertF
  simp only [hcap]
  cases q.cmp with
  | none => rfl
  | some cmp => simp only [upF_eq _ _ _ _ (Nat.lt_succ_self _)]

/-- `pop`, by recursion on a bound -/
def popF (q : PQ α) : Option α × PQ α :=
  match q.cmp with
  | none => (q.contents.getLast?, { q with contents := q.contents.dropLast })
  | some cmp =>
    match q.contents with
    | [] => (none, q)
    | x :: rest =>
      if (x :: rest).length > 1 then
        match rest.getLast? with
        | none => (some x, q)
        | some last =>
          let l := ((x :: rest).set 0 last).dropLast
          (some x, { q with contents := downF cmp (l.length + 1) l 0 last })
      else (some x, { q with contents := [] })

theorem popF_eq (q : PQ α) : pop q = popF q := by
  obtain ⟨l, c, cap⟩ := q
  unfold pop popF
  cases c with
  | none => rfl
  | some cmp =>
    cases l with
    | nil => rfl
    | cons x rest =>
      simp only
      cases rest.getLast? with
      | none => rfl
      | some last => simp only; rw [downF_eq _ _ _ _ (by omega)]

end Verif.PQueue
