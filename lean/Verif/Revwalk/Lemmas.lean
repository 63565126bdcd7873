import Verif.Revwalk.Model
import Verif.Graph.Lemmas3
/-! # Marking and listing parents -/
namespace Verif.Revwalk
open Graph (Repo Reaches Proper Closed insertByDate edges timeCmp)

theorem mark_iff {f : Nat → Bool} {c x : Nat} : mark f c x = true ↔ x = c ∨ f x = true := by
  unfold mark
  by_cases h : x = c
  · simp [h]
  · simp [h]

theorem kids_len (g : Repo) (s : WS) (c : Nat) : (kids g s c).length ≤ ((g.parents c).getD []).length := by
  unfold kids; split
  · exact Nat.le_refl _
  · simp

theorem kids_parent {g : Repo} {s : WS} {c p : Nat} (h : p ∈ kids g s c) : s.parsed c = true ∧ ∃ ps, g.parents c = some ps ∧ p ∈ ps := by
  unfold kids at h
  by_cases hp : s.parsed c = true
  · rw [if_pos hp] at h
    refine ⟨hp, ?_⟩
    cases hps : g.parents c with
    | none => rw [hps] at h; cases h
    | some ps => rw [hps] at h; exact ⟨ps, rfl, h⟩
  · rw [if_neg hp] at h; cases h

theorem mem_kids {g : Repo} {s : WS} {c p : Nat} {ps : List Nat} (h : s.parsed c = true) (hp : g.parents c = some ps) (hm : p ∈ ps) : p ∈ kids g s c := by
  unfold kids; rw [if_pos h, hp]; exact hm

theorem kids_proper {g : Repo} {s : WS} {c p x : Nat} (h : p ∈ kids g s c) (hr : Reaches g p x) : Proper g c x := by
  obtain ⟨_, ps, h1, h2⟩ := kids_parent h
  exact ⟨ps, p, h1, h2, hr⟩

theorem kids_lt {g : Repo} (hcl : Closed g) {s : WS} {c p : Nat} (h : p ∈ kids g s c) : p < g.n := by
  obtain ⟨_, ps, h1, h2⟩ := kids_parent h
  exact hcl c ps h1 p h2

/-- the weight of the commits that are not marked -/
def unmarked (g : Repo) (u : Nat → Bool) : Nat := ((List.range g.n).map fun x => if (!u x) = true then ((g.parents x).getD []).length + 1 else 0).sum

theorem unmarked_mark {g : Repo} {u : Nat → Bool} {c : Nat} (hc : c < g.n) (hu : u c = false) :
    unmarked g (mark u c) + (((g.parents c).getD []).length + 1) = unmarked g u := by
  have := Graph.sum_upd' (fun x => ((g.parents x).getD []).length + 1) (fun x => !u x) c (by simp [hu]) g.n hc
  unfold unmarked
  rw [← this]
  congr 3
  funext x
  unfold mark
  by_cases hx : x = c
  · simp [hx]
  · simp [hx]

theorem unmarked_le (g : Repo) (u : Nat → Bool) : unmarked g u ≤ edges g + g.n := by
  unfold unmarked edges
  generalize g.n = n
  induction n with
  | zero => simp
  | succ n ih =>
    rw [List.range_succ, List.map_append, List.map_append, List.sum_append, List.sum_append]
    simp only [List.map_cons, List.map_nil, List.sum_cons, List.sum_nil, Nat.add_zero]
    split <;> omega

theorem edges_ge {g : Repo} {c : Nat} (hc : c < g.n) : ((g.parents c).getD []).length ≤ edges g := by
  have := unmarked_mark (g := g) (u := fun _ => false) hc rfl
  have h2 : unmarked g (fun _ => false) = edges g + g.n := by
    unfold unmarked edges
    generalize g.n = n
    induction n with
    | zero => simp
    | succ n ih =>
      rw [List.range_succ, List.map_append, List.map_append, List.sum_append, List.sum_append]
      simp only [List.map_cons, List.map_nil, List.sum_cons, List.sum_nil, Nat.add_zero]
      simp at ih ⊢
      omega
  have h3 : edges g = ((List.range g.n).map fun x => ((g.parents x).getD []).length).sum := rfl
  rw [h3]
  have : ∀ (n : Nat), c < n → ((g.parents c).getD []).length ≤ ((List.range n).map fun x => ((g.parents x).getD []).length).sum := by
    intro n
    induction n with
    | zero => intro h; omega
    | succ n ih =>
      intro h
      rw [List.range_succ, List.map_append, List.sum_append]
      simp only [List.map_cons, List.map_nil, List.sum_cons, List.sum_nil, Nat.add_zero]
      by_cases e : c = n
      · subst e; omega
      · have := ih (by omega); omega
  exact this g.n hc

/-- what marking changes -/
structure Marks (g : Repo) (from_ : List Nat) (s s' : WS) : Prop where
  parsed : s'.parsed = s.parsed
  seen : s'.seen = s.seen
  added : s'.added = s.added
  mono : ∀ x, s.unint x = true → s'.unint x = true
  all : ∀ x ∈ from_, s'.unint x = true
  reach : ∀ x, s'.unint x = true → s.unint x = true ∨ ∃ p ∈ from_, Reaches g p x
  closed : ∀ x, s'.unint x = true → s.unint x = false → ∀ p ∈ kids g s x, s'.unint p = true

theorem markLoop_ok {g : Repo} (hcl : Closed g) : ∀ (fuel : Nat) (stack : List Nat) (s : WS), (∀ c ∈ stack, c < g.n) → stack.length + unmarked g s.unint ≤ fuel →
    ∃ s', markLoop g fuel stack s = .ok s' ∧ Marks g stack s s'
  | fuel, [], s, _, _ => ⟨s, by cases fuel <;> rfl, rfl, rfl, rfl, fun _ h => h, by simp, fun _ h => .inl h, fun x h1 h2 => by rw [h1] at h2; cases h2⟩
  | 0, _ :: _, _, _, h => by simp at h
  | fuel + 1, c :: rest, s, hlt, hf => by
    rw [markLoop]
    rw [List.length_cons] at hf
    by_cases hu : s.unint c = true
    · rw [if_pos hu]
      obtain ⟨s', h1, h2⟩ := markLoop_ok hcl fuel rest s (fun x hx => hlt x (by simp [hx])) (by omega)
      refine ⟨s', h1, h2.parsed, h2.seen, h2.added, h2.mono, ?_, ?_, h2.closed⟩
      · intro x hx
        rcases List.mem_cons.1 hx with rfl | hx
        · exact h2.mono x hu
        · exact h2.all x hx
      · intro x hx
        rcases h2.reach x hx with h | ⟨p, hp, h⟩
        · exact .inl h
        · exact .inr ⟨p, by simp [hp], h⟩
    · rw [if_neg hu]
      have hu' : s.unint c = false := by simpa using hu
      have hsum := unmarked_mark (g := g) (hlt c (by simp)) hu'
      have hk := kids_len g s c
      obtain ⟨s', h1, h2⟩ := markLoop_ok hcl fuel ((kids g s c).take 1 ++ (kids g s c).reverse ++ rest) { s with unint := mark s.unint c } (by
        intro x hx
        simp only [List.mem_append, List.mem_reverse] at hx
        rcases hx with (hx | hx) | hx
        · exact kids_lt hcl (List.mem_of_mem_take hx)
        · exact kids_lt hcl hx
        · exact hlt x (by simp [hx])) (by
        simp only [List.length_append, List.length_take, List.length_reverse]
        omega)
      have hmem : ∀ x, x ∈ kids g s c → x ∈ (kids g s c).take 1 ++ (kids g s c).reverse ++ rest := by
        intro x hx; simp [hx]
      refine ⟨s', h1, h2.parsed, h2.seen, h2.added, ?_, ?_, ?_, ?_⟩
      · intro x hx; exact h2.mono x (mark_iff.2 (.inr hx))
      · intro x hx
        rcases List.mem_cons.1 hx with rfl | hx
        · exact h2.mono x (mark_iff.2 (.inl rfl))
        · exact h2.all x (by simp [hx])
      · intro x hx
        rcases h2.reach x hx with h | ⟨p, hp, h⟩
        · rcases mark_iff.1 h with rfl | h
          · exact .inr ⟨x, by simp, .refl x⟩
          · exact .inl h
        · have hp' : p ∈ kids g s c ∨ p ∈ rest := by
            simp only [List.mem_append, List.mem_reverse] at hp
            rcases hp with (hp | hp) | hp
            · exact .inl (List.mem_of_mem_take hp)
            · exact .inl hp
            · exact .inr hp
          rcases hp' with hp | hp
          · exact .inr ⟨c, by simp, (kids_proper hp h).reaches⟩
          · exact .inr ⟨p, by simp [hp], h⟩
      · intro x hx hn p hp
        by_cases hxc : x = c
        · subst hxc
          exact h2.all p (hmem p hp)
        · refine h2.closed x hx ?_ p hp
          simp only [mark, if_neg hxc, hn]

/-- `mark_parents_uninteresting` marks the parents, and what they lead to through parsed commits -/
theorem markParents_ok {g : Repo} (hcl : Closed g) {c : Nat} (hc : c < g.n) (s : WS) : ∃ s', markParents g c s = .ok s' ∧ Marks g (kids g s c) s s' := by
  unfold markParents
  obtain ⟨s', h1, h2⟩ := markLoop_ok hcl (2 * edges g + g.n) (kids g s c).reverse s (fun x hx => kids_lt hcl (List.mem_reverse.1 hx)) (by
    have := unmarked_le g s.unint
    have := kids_len g s c
    have := edges_ge hc
    rw [List.length_reverse]
    omega)
  exact ⟨s', h1, h2.parsed, h2.seen, h2.added, h2.mono, fun x hx => h2.all x (by simpa using hx), fun x hx => by simpa using h2.reach x hx, h2.closed⟩

theorem parse_cases (g : Repo) (s : WS) (c : Nat) (hp : ∀ x, s.parsed x = true → ∃ ps, g.parents x = some ps) :
    (parse g s c = .err (-1) ∧ g.parents c = none) ∨
    (parse g s c = .ok { s with parsed := mark s.parsed c } ∧ ∃ ps, g.parents c = some ps) := by
  unfold parse
  by_cases h : s.parsed c = true
  · rw [if_pos h]
    refine .inr ⟨?_, hp c h⟩
    congr 1
    have : mark s.parsed c = s.parsed := by
      funext x; unfold mark
      by_cases hx : x = c
      · rw [if_pos hx, hx, h]
      · rw [if_neg hx]
    rw [this]
  · rw [if_neg h]
    cases hps : g.parents c with
    | none => exact .inl ⟨rfl, rfl⟩
    | some ps => exact .inr ⟨rfl, ps, rfl⟩

/-- commits that were parsed can be read -/
def ParsedOk (g : Repo) (s : WS) : Prop := ∀ x, s.parsed x = true → ∃ ps, g.parents x = some ps

theorem parsedOk_mark {g : Repo} {s : WS} (h : ParsedOk g s) {c : Nat} {ps : List Nat} (hc : g.parents c = some ps) (u : Nat → Bool) :
    ParsedOk g { s with parsed := mark s.parsed c, unint := u } := by
  intro x hx
  rcases mark_iff.1 hx with rfl | hx
  · exact ⟨ps, hc⟩
  · exact h x hx

theorem kids_mark {g : Repo} {s t : WS} {c x p : Nat} (h : p ∈ kids g s x) (ht : t.parsed = mark s.parsed c) : p ∈ kids g t x := by
  obtain ⟨h1, ps, h2, h3⟩ := kids_parent h
  exact mem_kids (by rw [ht]; exact mark_iff.2 (.inr h1)) h2 h3

/-- what listing the parents of an uninteresting commit does -/
structure Hides (g : Repo) (ps : List Nat) (s s' : WS) : Prop where
  ok : ParsedOk g s'
  parsed : ∀ x, s'.parsed x = true ↔ s.parsed x = true ∨ x ∈ ps
  seen : ∀ x, s'.seen x = true ↔ s.seen x = true ∨ x ∈ ps
  added : s'.added = s.added
  mono : ∀ x, s.unint x = true → s'.unint x = true
  all : ∀ x ∈ ps, s'.unint x = true
  reach : ∀ x, s'.unint x = true → s.unint x = true ∨ ∃ p ∈ ps, Reaches g p x
  closed : ∀ x, s'.unint x = true → s.unint x = false → ∀ p ∈ kids g s x, s'.unint p = true

theorem addHidden_ok {g : Repo} (hcl : Closed g) : ∀ (ps : List Nat) (s : WS) (l : List Nat), ParsedOk g s → (∀ p ∈ ps, p < g.n) →
    (addHidden g ps s l = .err (-1) ∧ ∃ p ∈ ps, g.parents p = none) ∨
    ∃ s', addHidden g ps s l = .ok (s', ps.foldl (fun l p => insertByDate g p l) l) ∧ Hides g ps s s'
  | [], s, l, hp, _ => .inr ⟨s, rfl, hp, by simp, by simp, rfl, fun _ h => h, by simp, fun _ h => .inl h, fun x h1 h2 => by rw [h1] at h2; cases h2⟩
  | p :: ps, s, l, hok, hlt => by
    rw [addHidden]
    rcases parse_cases g { s with unint := mark s.unint p } p hok with ⟨h1, h2⟩ | ⟨h1, pps, h2⟩
    · left; rw [h1]; exact ⟨rfl, p, by simp, h2⟩
    · rw [h1, Res.bind_ok]
      obtain ⟨s1, m1, m2⟩ := markParents_ok hcl (hlt p (by simp)) { s with parsed := mark s.parsed p, unint := mark s.unint p }
      rw [m1, Res.bind_ok]
      have hok1 : ParsedOk g { s1 with seen := mark s1.seen p } := by
        intro x hx
        have : s1.parsed x = true := hx
        rw [m2.parsed] at this
        exact parsedOk_mark hok h2 (mark s.unint p) x this
      rcases addHidden_ok hcl ps { s1 with seen := mark s1.seen p } (insertByDate g p l) hok1 (fun x hx => hlt x (by simp [hx])) with ⟨k1, x, hx, k2⟩ | ⟨s', k1, k2⟩
      · exact .inl ⟨k1, x, by simp [hx], k2⟩
      · refine .inr ⟨s', k1, k2.ok, ?_, ?_, ?_, ?_, ?_, ?_, ?_⟩
        · intro x
          rw [k2.parsed x]
          have : (s1.parsed x = true) ↔ x = p ∨ s.parsed x = true := by rw [m2.parsed]; exact mark_iff
          simp only [this, List.mem_cons]
          constructor
          · rintro ((h | h) | h)
            · exact .inr (.inl h)
            · exact .inl h
            · exact .inr (.inr h)
          · rintro (h | h | h)
            · exact .inl (.inr h)
            · exact .inl (.inl h)
            · exact .inr h
        · intro x
          rw [k2.seen x, mark_iff]
          have : s1.seen = s.seen := m2.seen
          simp only [this, List.mem_cons]
          constructor
          · rintro ((h | h) | h)
            · exact .inr (.inl h)
            · exact .inl h
            · exact .inr (.inr h)
          · rintro (h | h | h)
            · exact .inl (.inr h)
            · exact .inl (.inl h)
            · exact .inr h
        · rw [k2.added]; exact m2.added
        · intro x hx
          exact k2.mono x (m2.mono x (mark_iff.2 (.inr hx)))
        · intro x hx
          rcases List.mem_cons.1 hx with rfl | hx
          · exact k2.mono x (m2.mono x (mark_iff.2 (.inl rfl)))
          · exact k2.all x hx
        · intro x hx
          rcases k2.reach x hx with h | ⟨q, hq, h⟩
          · rcases m2.reach x h with h | ⟨q, hq, h⟩
            · rcases mark_iff.1 h with rfl | h
              · exact .inr ⟨x, by simp, .refl x⟩
              · exact .inl h
            · exact .inr ⟨p, by simp, (kids_proper hq h).reaches⟩
          · exact .inr ⟨q, by simp [hq], h⟩
        · intro x hx hn q hq
          by_cases h1 : s1.unint x = true
          · -- marked by now
            refine k2.mono q ?_
            by_cases hxp : x = p
            · subst hxp
              exact m2.all q (kids_mark hq rfl)
            · exact m2.closed x h1 (by simp only [mark, if_neg hxp, hn]) q (kids_mark hq rfl)
          · refine k2.closed x hx (by simpa using h1) q ?_
            obtain ⟨e1, e2, e3, e4⟩ := kids_parent hq
            exact mem_kids (by simp only; rw [m2.parsed]; exact mark_iff.2 (.inr e1)) e3 e4

/-- what listing the parents of an interesting commit does; `A` are those that are listed -/
structure Shows (g : Repo) (o : Opts) (ps A : List Nat) (s s' : WS) : Prop where
  ok : ParsedOk g s'
  mono : ∀ x, s.parsed x = true → s'.parsed x = true
  sub : ∀ x ∈ A, x ∈ ps ∧ s'.parsed x = true ∧ s.seen x = false
  nodup : A.Nodup
  seen : ∀ x, s'.seen x = true ↔ s.seen x = true ∨ x ∈ A
  added : s'.added = s.added
  unint : s'.unint = s.unint
  all : o.hideCb = none → o.firstParent = false → ∀ x ∈ ps, s'.seen x = true

theorem addShown_ok {g : Repo} {o : Opts} : ∀ (ps : List Nat) (s : WS) (l : List Nat), ParsedOk g s →
    (addShown g o ps s l = .err (-1) ∧ ∃ p ∈ ps, g.parents p = none) ∨
    ∃ s' A, addShown g o ps s l = .ok (s', A.foldl (fun l p => insertByDate g p l) l) ∧ Shows g o ps A s s'
  | [], s, l, hp => .inr ⟨s, [], rfl, hp, fun _ h => h, by simp, List.nodup_nil, by simp, rfl, rfl, by simp⟩
  | p :: ps, s, l, hok => by
    rw [addShown]
    rcases parse_cases g s p hok with ⟨h1, h2⟩ | ⟨h1, pps, h2⟩
    · left; rw [h1]; exact ⟨rfl, p, by simp, h2⟩
    rw [h1, Res.bind_ok]
    have hok1 : ParsedOk g { s with parsed := mark s.parsed p } := parsedOk_mark hok h2 s.unint
    by_cases hh : o.hides p = true
    · rw [if_pos hh]
      rcases addShown_ok ps { s with parsed := mark s.parsed p } l hok1 with ⟨k1, x, hx, k2⟩ | ⟨s', A, k1, k2⟩
      · exact .inl ⟨k1, x, by simp [hx], k2⟩
      · refine .inr ⟨s', A, k1, k2.ok, fun x hx => k2.mono x (mark_iff.2 (.inr hx)), ?_, k2.nodup, k2.seen, k2.added, k2.unint, ?_⟩
        · intro x hx
          obtain ⟨a, b, c⟩ := k2.sub x hx
          exact ⟨by simp [a], b, c⟩
        · intro hcb _
          exfalso
          unfold Opts.hides at hh
          rw [hcb] at hh
          cases hh
    · rw [if_neg hh]
      simp only
      -- the bits and the list once the parent is done
      by_cases hs : s.seen p = true
      · rw [if_pos hs, if_pos hs]
        by_cases hf : o.firstParent = true
        · rw [if_pos hf]
          refine .inr ⟨_, [], rfl, hok1, fun x hx => mark_iff.2 (.inr hx), by simp, List.nodup_nil, by simp, rfl, rfl, ?_⟩
          intro _ hf'; rw [hf] at hf'; cases hf'
        · rw [if_neg hf]
          rcases addShown_ok ps { s with parsed := mark s.parsed p } l hok1 with ⟨k1, x, hx, k2⟩ | ⟨s', A, k1, k2⟩
          · exact .inl ⟨k1, x, by simp [hx], k2⟩
          · refine .inr ⟨s', A, k1, k2.ok, fun x hx => k2.mono x (mark_iff.2 (.inr hx)), ?_, k2.nodup, k2.seen, k2.added, k2.unint, ?_⟩
            · intro x hx
              obtain ⟨a, b, c⟩ := k2.sub x hx
              exact ⟨by simp [a], b, c⟩
            · intro e1 e2 x hx
              rcases List.mem_cons.1 hx with rfl | hx
              · exact (k2.seen x).2 (.inl hs)
              · exact k2.all e1 e2 x hx
      · rw [if_neg hs, if_neg hs]
        have hs' : s.seen p = false := by simpa using hs
        by_cases hf : o.firstParent = true
        · rw [if_pos hf]
          refine .inr ⟨_, [p], rfl, hok1, fun x hx => mark_iff.2 (.inr hx), ?_, by simp, ?_, rfl, rfl, ?_⟩
          · intro x hx
            rw [List.mem_singleton] at hx
            subst hx
            exact ⟨by simp, mark_iff.2 (.inl rfl), hs'⟩
          · intro x
            simp only [mark_iff, List.mem_singleton]
            exact Or.comm
          · intro _ hf'; rw [hf] at hf'; cases hf'
        · rw [if_neg hf]
          rcases addShown_ok ps { s with parsed := mark s.parsed p, seen := mark s.seen p } (insertByDate g p l) hok1 with ⟨k1, x, hx, k2⟩ | ⟨s', A, k1, k2⟩
          · exact .inl ⟨k1, x, by simp [hx], k2⟩
          · have hpA : p ∉ A := by
              intro hm
              have := (k2.sub p hm).2.2
              simp only [mark, if_true] at this
              cases this
            refine .inr ⟨s', p :: A, k1, k2.ok, fun x hx => k2.mono x (mark_iff.2 (.inr hx)), ?_, List.nodup_cons.2 ⟨hpA, k2.nodup⟩, ?_, k2.added, k2.unint, ?_⟩
            · intro x hx
              rcases List.mem_cons.1 hx with rfl | hx
              · exact ⟨by simp, k2.mono x (mark_iff.2 (.inl rfl)), hs'⟩
              · obtain ⟨a, b, c⟩ := k2.sub x hx
                refine ⟨by simp [a], b, ?_⟩
                simp only [mark] at c
                by_cases hxp : x = p
                · rw [if_pos hxp] at c; cases c
                · rw [if_neg hxp] at c; exact c
            · intro x
              rw [k2.seen x]
              simp only [mark_iff, List.mem_cons]
              constructor
              · rintro ((h | h) | h)
                · exact .inr (.inl h)
                · exact .inl h
                · exact .inr (.inr h)
              · rintro (h | h | h)
                · exact .inl (.inr h)
                · exact .inl (.inl h)
                · exact .inr h
            · intro e1 e2 x hx
              rcases List.mem_cons.1 hx with rfl | hx
              · exact (k2.seen x).2 (.inl (mark_iff.2 (.inl rfl)))
              · exact k2.all e1 e2 x hx

theorem fold_perm (g : Repo) : ∀ (A l : List Nat), (A.foldl (fun l p => insertByDate g p l) l).Perm (A ++ l)
  | [], l => List.Perm.refl _
  | a :: A, l => (fold_perm g A (insertByDate g a l)).trans (((Graph.insertByDate_perm g a l).append_left A).trans List.perm_middle)

end Verif.Revwalk
