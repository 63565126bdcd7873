import Verif.Revwalk.Lemmas
/-! # The list of a limited walk -/
namespace Verif.Revwalk
open Graph (Repo Reaches Proper Closed insertByDate edges timeCmp)

/-- the parents of commits whose parents were not listed yet -/
def pend (g : Repo) (a : Nat → Bool) : Nat := ((List.range g.n).map fun x => if (!a x) = true then ((g.parents x).getD []).length else 0).sum

theorem pend_mark {g : Repo} {a : Nat → Bool} {c : Nat} (hc : c < g.n) (ha : a c = false) :
    pend g (mark a c) + ((g.parents c).getD []).length = pend g a := by
  have := Graph.sum_upd' (fun x => ((g.parents x).getD []).length) (fun x => !a x) c (by simp [ha]) g.n hc
  unfold pend
  rw [← this]
  congr 3
  funext x
  unfold mark
  by_cases hx : x = c
  · simp [hx]
  · simp [hx]

theorem pend_le (g : Repo) (a : Nat → Bool) : pend g a ≤ edges g := by
  unfold pend edges
  generalize g.n = n
  induction n with
  | zero => simp
  | succ n ih =>
    rw [List.range_succ, List.map_append, List.map_append, List.sum_append, List.sum_append]
    simp only [List.map_cons, List.map_nil, List.sum_cons, List.sum_nil, Nat.add_zero]
    split <;> omega

theorem Reaches.snoc {g : Repo} {a c p : Nat} {ps : List Nat} (h : Reaches g a c) (h1 : g.parents c = some ps) (h2 : p ∈ ps) : Reaches g a p := by
  induction h with
  | refl c => exact .step h1 h2 (.refl p)
  | step a b _ ih => exact .step a b (ih h1)

/-- What holds when commits are taken off the list: `l` is the list, `out` are the commits taken that were interesting; `H` were hidden, `P` were pushed. -/
structure Inv (g : Repo) (o : Opts) (H P : Nat → Prop) (s : WS) (l out : List Nat) : Prop where
  ok : ParsedOk g s
  lt : ∀ c ∈ l, c < g.n
  lp : ∀ c ∈ l, s.parsed c = true
  ls : ∀ c ∈ l, s.seen c = true
  la : ∀ c ∈ l, s.added c = true → s.unint c = true
  ap : ∀ c, s.added c = true → s.parsed c = true ∧ s.seen c = true
  os : ∀ c ∈ out, s.added c = true
  nd : out.Nodup
  cnt : ∀ c, s.unint c = false → (out ++ l).count c ≤ 1
  ur : ∀ c, s.unint c = true → ∃ h, H h ∧ Reaches g h c
  lr : ∀ c ∈ l, s.unint c = true ∨ ∃ p, P p ∧ Reaches g p c
  outr : ∀ c ∈ out, ∃ p, P p ∧ Reaches g p c
  sl : ∀ c, s.seen c = true → c ∈ l ∨ s.added c = true
  ua : ∀ c ps p, s.unint c = true → s.added c = true → g.parents c = some ps → p ∈ ps → s.unint p = true
  as : o.hideCb = none → o.firstParent = false → ∀ c ps p, s.added c = true → g.parents c = some ps → p ∈ ps → s.seen p = true
  ao : o.hideCb = none → ∀ c, s.added c = true → s.unint c = true ∨ c ∈ out
  hu : ∀ c, H c → s.unint c = true ∧ s.seen c = true
  pu : ∀ c, P c → s.seen c = true

variable {g : Repo} {o : Opts} {H P : Nat → Prop}

/-- some commit that is needed cannot be read -/
def Missing (g : Repo) (H P : Nat → Prop) : Prop := ∃ x r, (H r ∨ P r) ∧ Reaches g r x ∧ g.parents x = none

/-- marking more commits as uninteresting -/
theorem Inv.marked {s s' : WS} {l out : List Nat} {c : Nat} (hi : Inv g o H P s l out) (hu : s.unint c = true) (hm : Marks g (kids g s c) s s') : Inv g o H P s' l out where
  ok := fun x hx => hi.ok x (by rw [← hm.parsed]; exact hx)
  lt := hi.lt
  lp := by rw [hm.parsed]; exact hi.lp
  ls := by rw [hm.seen]; exact hi.ls
  la := fun x hx ha => hm.mono x (hi.la x hx (by rw [← hm.added]; exact ha))
  ap := by rw [hm.parsed, hm.seen, hm.added]; exact hi.ap
  os := by rw [hm.added]; exact hi.os
  nd := hi.nd
  cnt := fun x hx => hi.cnt x (by
    cases h : s.unint x with
    | false => rfl
    | true => rw [hm.mono x h] at hx; cases hx)
  ur := fun x hx => by
    rcases hm.reach x hx with h | ⟨p, hp, hr⟩
    · exact hi.ur x h
    · obtain ⟨h, h1, h2⟩ := hi.ur c hu
      obtain ⟨_, ps, k1, k2⟩ := kids_parent hp
      exact ⟨h, h1, (Reaches.snoc h2 k1 k2).trans hr⟩
  lr := fun x hx => (hi.lr x hx).imp (hm.mono x) id
  outr := hi.outr
  sl := by rw [hm.seen, hm.added]; exact hi.sl
  ua := fun x ps p hx ha h1 h2 => by
    rw [hm.added] at ha
    cases h : s.unint x with
    | true => exact hm.mono p (hi.ua x ps p h ha h1 h2)
    | false => exact hm.closed x hx h p (mem_kids (hi.ap x ha).1 h1 h2)
  as := by rw [hm.seen, hm.added]; exact hi.as
  ao := fun e x ha => (hi.ao e x (by rw [← hm.added]; exact ha)).imp (hm.mono x) id
  hu := fun x hx => ⟨hm.mono x (hi.hu x hx).1, by rw [hm.seen]; exact (hi.hu x hx).2⟩
  pu := by rw [hm.seen]; exact hi.pu

theorem count_app_cons {out rest : List Nat} {c x : Nat} (h : x ≠ c) : (out ++ c :: rest).count x = (out ++ rest).count x := by
  rw [List.count_append, List.count_append, List.count_cons_of_ne (Ne.symm h)]

/-- taking an uninteresting commit off the list -/
theorem Inv.hide {s s' : WS} {c : Nat} {rest out l' : List Nat} (hi : Inv g o H P s (c :: rest) out) (hu : s.unint c = true) (hna : s.added c = false) (hcl : Closed g)
    (hh : Hides g (kids g s c) { s with added := mark s.added c } s') (hl : l'.Perm (kids g s c ++ rest)) : Inv g o H P s' l' out := by
  have hadd : ∀ x, s'.added x = true ↔ x = c ∨ s.added x = true := by intro x; rw [hh.added]; exact mark_iff
  have hml : ∀ x, x ∈ l' ↔ x ∈ kids g s c ∨ x ∈ rest := by intro x; rw [hl.mem_iff, List.mem_append]
  have hcp : s.parsed c = true := hi.lp c (by simp)
  refine ⟨hh.ok, ?_, ?_, ?_, ?_, ?_, ?_, hi.nd, ?_, ?_, ?_, hi.outr, ?_, ?_, ?_, ?_, ?_, ?_⟩
  · intro x hx
    rcases (hml x).1 hx with h | h
    · exact kids_lt hcl h
    · exact hi.lt x (by simp [h])
  · intro x hx
    rcases (hml x).1 hx with h | h
    · exact (hh.parsed x).2 (.inr h)
    · exact (hh.parsed x).2 (.inl (hi.lp x (by simp [h])))
  · intro x hx
    rcases (hml x).1 hx with h | h
    · exact (hh.seen x).2 (.inr h)
    · exact (hh.seen x).2 (.inl (hi.ls x (by simp [h])))
  · intro x hx ha
    rcases (hml x).1 hx with h | h
    · exact hh.all x h
    · rcases (hadd x).1 ha with rfl | ha
      · exact hh.mono x hu
      · exact hh.mono x (hi.la x (by simp [h]) ha)
  · intro x ha
    rcases (hadd x).1 ha with rfl | ha
    · exact ⟨(hh.parsed x).2 (.inl hcp), (hh.seen x).2 (.inl (hi.ls x (by simp)))⟩
    · exact ⟨(hh.parsed x).2 (.inl (hi.ap x ha).1), (hh.seen x).2 (.inl (hi.ap x ha).2)⟩
  · intro x hx; exact (hadd x).2 (.inr (hi.os x hx))
  · intro x hx
    have hx0 : s.unint x = false := by
      cases h : s.unint x with
      | false => rfl
      | true => rw [hh.mono x h] at hx; cases hx
    have hxc : x ≠ c := by rintro rfl; rw [hu] at hx0; cases hx0
    have hxk : x ∉ kids g s c := by intro h; rw [hh.all x h] at hx; cases hx
    have := hi.cnt x hx0
    rw [count_app_cons hxc] at this
    rw [List.count_append, hl.count_eq, List.count_append, List.count_eq_zero_of_not_mem hxk]
    rw [List.count_append] at this
    omega
  · intro x hx
    rcases hh.reach x hx with h | ⟨p, hp, hr⟩
    · exact hi.ur x h
    · obtain ⟨h, h1, h2⟩ := hi.ur c hu
      exact ⟨h, h1, h2.trans (kids_proper hp hr).reaches⟩
  · intro x hx
    rcases (hml x).1 hx with h | h
    · exact .inl (hh.all x h)
    · exact (hi.lr x (by simp [h])).imp (hh.mono x) id
  · intro x hx
    rcases (hh.seen x).1 hx with h | h
    · rcases hi.sl x h with h | h
      · rcases List.mem_cons.1 h with rfl | h
        · exact .inr ((hadd x).2 (.inl rfl))
        · exact .inl ((hml x).2 (.inr h))
      · exact .inr ((hadd x).2 (.inr h))
    · exact .inl ((hml x).2 (.inl h))
  · intro x ps p hx ha h1 h2
    cases h : s.unint x with
    | true =>
      rcases (hadd x).1 ha with rfl | ha
      · exact hh.all p (mem_kids hcp h1 h2)
      · exact hh.mono p (hi.ua x ps p h ha h1 h2)
    | false =>
      have hxc : x ≠ c := by rintro rfl; rw [hu] at h; cases h
      have hax : s.added x = true := by
        rcases (hadd x).1 ha with h | h
        · exact absurd h hxc
        · exact h
      exact hh.closed x hx h p (mem_kids (hi.ap x hax).1 h1 h2)
  · intro e1 e2 x ps p ha h1 h2
    rcases (hadd x).1 ha with rfl | ha
    · exact (hh.seen p).2 (.inr (mem_kids hcp h1 h2))
    · exact (hh.seen p).2 (.inl (hi.as e1 e2 x ps p ha h1 h2))
  · intro e x ha
    rcases (hadd x).1 ha with rfl | ha
    · exact .inl (hh.mono x hu)
    · exact (hi.ao e x ha).imp (hh.mono x) id
  · intro x hx; exact ⟨hh.mono x (hi.hu x hx).1, (hh.seen x).2 (.inl (hi.hu x hx).2)⟩
  · intro x hx; exact (hh.seen x).2 (.inl (hi.pu x hx))

/-- taking an interesting commit off the list -/
theorem Inv.show {s s' : WS} {c : Nat} {rest out A l' : List Nat} (hi : Inv g o H P s (c :: rest) out) (hu : s.unint c = false) (hcl : Closed g)
    (hh : Shows g o (kids g s c) A { s with added := mark s.added c } s') (hl : l'.Perm (A ++ rest)) : Inv g o H P s' l' (c :: out) := by
  have hna : s.added c = false := by
    cases h : s.added c with
    | false => rfl
    | true => rw [hi.la c (by simp) h] at hu; cases hu
  have hco : c ∉ out := by intro h; rw [hi.os c h] at hna; cases hna
  have hadd : ∀ x, s'.added x = true ↔ x = c ∨ s.added x = true := by intro x; rw [hh.added]; exact mark_iff
  have hml : ∀ x, x ∈ l' ↔ x ∈ A ∨ x ∈ rest := by intro x; rw [hl.mem_iff, List.mem_append]
  have hcp : s.parsed c = true := hi.lp c (by simp)
  have hcr : c ∉ rest := by
    intro h
    have := hi.cnt c hu
    rw [List.count_append, List.count_cons_self] at this
    have := List.one_le_count_iff.2 h
    omega
  have hpr : ∃ p, P p ∧ Reaches g p c := by
    rcases hi.lr c (by simp) with h | h
    · rw [hu] at h; cases h
    · exact h
  have hA : ∀ x ∈ A, x ≠ c ∧ x ∉ out ∧ x ∉ rest := by
    intro x hx
    obtain ⟨_, _, h⟩ := hh.sub x hx
    have h : s.seen x = false := h
    refine ⟨?_, ?_, ?_⟩
    · rintro rfl; rw [hi.ls x (by simp)] at h; cases h
    · intro hm; rw [(hi.ap x (hi.os x hm)).2] at h; cases h
    · intro hm; rw [hi.ls x (by simp [hm])] at h; cases h
  refine ⟨hh.ok, ?_, ?_, ?_, ?_, ?_, ?_, List.nodup_cons.2 ⟨hco, hi.nd⟩, ?_, ?_, ?_, ?_, ?_, ?_, ?_, ?_, ?_, ?_⟩
  · intro x hx
    rcases (hml x).1 hx with h | h
    · exact kids_lt hcl (hh.sub x h).1
    · exact hi.lt x (by simp [h])
  · intro x hx
    rcases (hml x).1 hx with h | h
    · exact (hh.sub x h).2.1
    · exact hh.mono x (hi.lp x (by simp [h]))
  · intro x hx
    rcases (hml x).1 hx with h | h
    · exact (hh.seen x).2 (.inr h)
    · exact (hh.seen x).2 (.inl (hi.ls x (by simp [h])))
  · intro x hx ha
    rw [hh.unint]
    rcases (hml x).1 hx with h | h
    · rcases (hadd x).1 ha with rfl | ha
      · exact absurd rfl (hA x h).1
      · have := (hh.sub x h).2.2
        have h3 : s.seen x = false := this
        rw [(hi.ap x ha).2] at h3; cases h3
    · rcases (hadd x).1 ha with rfl | ha
      · exact absurd h hcr
      · exact hi.la x (by simp [h]) ha
  · intro x ha
    rcases (hadd x).1 ha with rfl | ha
    · exact ⟨hh.mono x hcp, (hh.seen x).2 (.inl (hi.ls x (by simp)))⟩
    · exact ⟨hh.mono x (hi.ap x ha).1, (hh.seen x).2 (.inl (hi.ap x ha).2)⟩
  · intro x hx
    rcases List.mem_cons.1 hx with rfl | hx
    · exact (hadd x).2 (.inl rfl)
    · exact (hadd x).2 (.inr (hi.os x hx))
  · intro x hx
    rw [hh.unint] at hx
    have h1 := hi.cnt x hx
    rw [List.count_append, hl.count_eq, List.count_append]
    by_cases hxA : x ∈ A
    · obtain ⟨a, b, d⟩ := hA x hxA
      rw [List.count_eq_zero_of_not_mem d, List.count_eq_zero_of_not_mem (by simp [a, b])]
      have := List.nodup_iff_count.1 hh.nodup x
      omega
    · rw [List.count_eq_zero_of_not_mem hxA]
      by_cases hxc : x = c
      · subst hxc
        rw [List.count_cons_self, List.count_eq_zero_of_not_mem hco, List.count_eq_zero_of_not_mem hcr]
        omega
      · rw [count_app_cons hxc, List.count_append] at h1
        rw [List.count_cons_of_ne (Ne.symm hxc)]
        omega
  · intro x hx; rw [hh.unint] at hx; exact hi.ur x hx
  · intro x hx
    rw [hh.unint]
    rcases (hml x).1 hx with h | h
    · obtain ⟨p, h1, h2⟩ := hpr
      exact .inr ⟨p, h1, h2.trans (kids_proper (hh.sub x h).1 (.refl x)).reaches⟩
    · exact hi.lr x (by simp [h])
  · intro x hx
    rcases List.mem_cons.1 hx with rfl | hx
    · exact hpr
    · exact hi.outr x hx
  · intro x hx
    rcases (hh.seen x).1 hx with h | h
    · rcases hi.sl x h with h | h
      · rcases List.mem_cons.1 h with rfl | h
        · exact .inr ((hadd x).2 (.inl rfl))
        · exact .inl ((hml x).2 (.inr h))
      · exact .inr ((hadd x).2 (.inr h))
    · exact .inl ((hml x).2 (.inl h))
  · intro x ps p hx ha h1 h2
    rw [hh.unint] at hx ⊢
    rcases (hadd x).1 ha with rfl | ha
    · have hx : s.unint x = true := hx
      rw [hu] at hx; cases hx
    · exact hi.ua x ps p hx ha h1 h2
  · intro e1 e2 x ps p ha h1 h2
    rcases (hadd x).1 ha with rfl | ha
    · exact hh.all e1 e2 p (mem_kids hcp h1 h2)
    · exact (hh.seen p).2 (.inl (hi.as e1 e2 x ps p ha h1 h2))
  · intro e x ha
    rw [hh.unint]
    rcases (hadd x).1 ha with rfl | ha
    · exact .inr (by simp)
    · exact (hi.ao e x ha).imp id (fun h => by simp [h])
  · intro x hx; rw [hh.unint]; exact ⟨(hi.hu x hx).1, (hh.seen x).2 (.inl (hi.hu x hx).2)⟩
  · intro x hx; exact (hh.seen x).2 (.inl (hi.pu x hx))

/-- an uninteresting commit that was taken off before -/
theorem Inv.again {s : WS} {c : Nat} {rest out : List Nat} (hi : Inv g o H P s (c :: rest) out) (ha : s.added c = true) : Inv g o H P s rest out :=
  { hi with
    lt := fun x hx => hi.lt x (by simp [hx])
    lp := fun x hx => hi.lp x (by simp [hx])
    ls := fun x hx => hi.ls x (by simp [hx])
    la := fun x hx => hi.la x (by simp [hx])
    lr := fun x hx => hi.lr x (by simp [hx])
    cnt := fun x hx => by
      have h := hi.cnt x hx
      rw [List.count_append, List.count_cons] at h
      rw [List.count_append]
      omega
    sl := fun x hx => by
      rcases hi.sl x hx with h | h
      · rcases List.mem_cons.1 h with rfl | h
        · exact .inr ha
        · exact .inl h
      · exact .inr h }

/-- a commit that the callback hides is not listed -/
theorem Inv.drop {s : WS} {c : Nat} {l out : List Nat} (hi : Inv g o H P s l (c :: out)) (hcb : o.hideCb ≠ none) : Inv g o H P s l out :=
  { hi with
    os := fun x hx => hi.os x (by simp [hx])
    nd := (List.nodup_cons.1 hi.nd).2
    cnt := fun x hx => by
      have h := hi.cnt x hx
      rw [List.cons_append, List.count_cons] at h
      omega
    outr := fun x hx => hi.outr x (by simp [hx])
    ao := fun e => absurd e hcb }

/-- one turn of the loop: the parents -/
theorem addParents_ok {s : WS} {c : Nat} {rest out : List Nat} (hcl : Closed g) (hi : Inv g o H P s (c :: rest) out) :
    (addParents g o c s rest = .err (-1) ∧ Missing g H P) ∨
    ∃ (s' : WS) (A : List Nat), addParents g o c s rest = .ok (s', A.foldl (fun l p => insertByDate g p l) rest) ∧ (∀ x ∈ A, x ∈ kids g s c) ∧ A.length + pend g s'.added ≤ pend g s.added ∧
      (∀ x, s.unint x = true → s'.unint x = true) ∧ (∀ x, s.seen x = true → s'.seen x = true) ∧
      ((s.unint c = true ∧ s'.unint c = true ∧ (∀ x ∈ A, s'.unint x = true) ∧ Inv g o H P s' (A.foldl (fun l p => insertByDate g p l) rest) out) ∨
       (s.unint c = false ∧ s'.unint = s.unint ∧ (∀ x ∈ A, s.seen x = false) ∧ Inv g o H P s' (A.foldl (fun l p => insertByDate g p l) rest) (c :: out))) := by
  have hcn := hi.lt c (by simp)
  have hmiss : ∀ p ∈ kids g s c, g.parents p = none → Missing g H P := by
    intro p hp hn
    obtain ⟨_, ps, k1, k2⟩ := kids_parent hp
    rcases hi.lr c (by simp) with h | ⟨r, h1, h2⟩
    · obtain ⟨r, h1, h2⟩ := hi.ur c h
      exact ⟨p, r, .inl h1, Reaches.snoc h2 k1 k2, hn⟩
    · exact ⟨p, r, .inr h1, Reaches.snoc h2 k1 k2, hn⟩
  unfold addParents
  by_cases ha : s.added c = true
  · rw [if_pos ha]
    have hu := hi.la c (by simp) ha
    exact .inr ⟨s, [], rfl, by simp, by simp, fun _ h => h, fun _ h => h, .inl ⟨hu, hu, by simp, hi.again ha⟩⟩
  · rw [if_neg ha]
    have ha : s.added c = false := by simpa using ha
    have hpm := pend_mark hcn ha
    have hkl := kids_len g s c
    have hok : ParsedOk g { s with added := mark s.added c } := hi.ok
    by_cases hu : s.unint c = true
    · rw [if_pos hu]
      rcases addHidden_ok hcl (kids g s c) { s with added := mark s.added c } rest hok (fun p hp => kids_lt hcl hp) with ⟨h1, p, hp, h2⟩ | ⟨s', h1, h2⟩
      · exact .inl ⟨h1, hmiss p hp h2⟩
      · refine .inr ⟨s', kids g s c, h1, fun _ h => h, ?_, h2.mono, fun x h => (h2.seen x).2 (.inl h), .inl ⟨hu, h2.mono c hu, h2.all, hi.hide hu ha hcl h2 (fold_perm g _ _)⟩⟩
        rw [h2.added]; simp only; omega
    · rw [if_neg hu]
      have hu : s.unint c = false := by simpa using hu
      rcases addShown_ok (o := o) (kids g s c) { s with added := mark s.added c } rest hok with ⟨h1, p, hp, h2⟩ | ⟨s', A, h1, h2⟩
      · exact .inl ⟨h1, hmiss p hp h2⟩
      · refine .inr ⟨s', A, h1, fun x hx => (h2.sub x hx).1, ?_, fun x h => by rw [h2.unint]; exact h, fun x h => (h2.seen x).2 (.inl h),
          .inr ⟨hu, h2.unint, fun x hx => (h2.sub x hx).2.2, hi.show hu hcl h2 (fold_perm g _ _)⟩⟩
        have hlen : A.length ≤ (kids g s c).length := h2.nodup.length_le_of_subset (fun x hx => (h2.sub x hx).1)
        rw [h2.added]; simp only; omega

end Verif.Revwalk
