import Verif.Revwalk.Lemmas4
/-! # The start of a walk, and the whole of it -/
namespace Verif.Revwalk
open Graph (Repo Reaches Proper Closed Acyclic edges)
open Spec

variable {g : Repo} {o : Opts} {H P : Nat → Prop}

/-- what the calls leave -/
structure Called (calls : List (Nat × Bool)) (w0 w : Pre) : Prop where
  parsed : w.s.parsed = w0.s.parsed
  seen : w.s.seen = w0.s.seen
  added : w.s.added = w0.s.added
  unint : ∀ c, w.s.unint c = true ↔ w0.s.unint c = true ∨ Hidden calls c
  input : ∃ l, w.input = l ++ w0.input ∧ l.Sublist (calls.map (·.1)).reverse ∧ ∀ c h, (c, h) ∈ calls → c ∈ l ∨ w0.s.unint c = true
  hid : w.hid = true → w0.hid = true ∨ ∃ c, Hidden calls c
  hid' : (∃ c, Hidden calls c) → w.hid = true ∨ ∃ c, w0.s.unint c = true
  pushed : w.pushed = false → w0.pushed = false ∧ ∀ c, Pushed calls c → w.s.unint c = true

theorem pushes_ok : ∀ (calls : List (Nat × Bool)) (w0 : Pre), Called calls w0 (pushes w0 calls)
  | [], w0 => ⟨rfl, rfl, rfl, by simp [pushes, Hidden], ⟨[], rfl, by simp, by simp⟩, .inl, fun h => (by obtain ⟨c, h⟩ := h; cases h), fun h => ⟨h, fun c hc => (by cases hc)⟩⟩
  | (c, hide) :: calls, w0 => by
    rw [pushes]
    have ih := pushes_ok calls (pushOne w0 c hide)
    have hmem : ∀ x, Hidden ((c, hide) :: calls) x ↔ (x = c ∧ hide = true) ∨ Hidden calls x := by
      intro x; unfold Hidden
      rw [List.mem_cons, Prod.mk.injEq]
      exact or_congr_left (and_congr_right fun _ => eq_comm)
    by_cases hu : w0.s.unint c = true
    · have hp : pushOne w0 c hide = w0 := by unfold pushOne; rw [if_pos hu]
      rw [hp] at ih ⊢
      refine ⟨ih.parsed, ih.seen, ih.added, ?_, ?_, ?_, ?_, ?_⟩
      · intro x
        rw [ih.unint x, hmem]
        constructor
        · rintro (h | h)
          · exact .inl h
          · exact .inr (.inr h)
        · rintro (h | ⟨rfl, _⟩ | h)
          · exact .inl h
          · exact .inl hu
          · exact .inr h
      · obtain ⟨l, h1, h2, h3⟩ := ih.input
        refine ⟨l, h1, ?_, ?_⟩
        · rw [List.map_cons, List.reverse_cons]
          exact h2.trans (List.sublist_append_left _ _)
        · intro x h hx
          rcases List.mem_cons.1 hx with e | hx
          · cases e; exact .inr hu
          · exact h3 x h hx
      · intro h
        rcases ih.hid h with h | ⟨x, h⟩
        · exact .inl h
        · exact .inr ⟨x, (hmem x).2 (.inr h)⟩
      · rintro ⟨x, _⟩
        exact .inr ⟨c, hu⟩
      · intro h
        obtain ⟨h1, h2⟩ := ih.pushed h
        refine ⟨h1, ?_⟩
        intro x hx
        rcases List.mem_cons.1 hx with e | hx
        · cases e; exact (ih.unint _).2 (.inl hu)
        · exact h2 x hx
    · have hp : pushOne w0 c hide = ⟨{ w0.s with unint := if hide then mark w0.s.unint c else w0.s.unint }, c :: w0.input, w0.hid || hide, w0.pushed || !hide⟩ := by
        unfold pushOne; rw [if_neg hu]
      have hun : ∀ x, (pushOne w0 c hide).s.unint x = true ↔ (x = c ∧ hide = true) ∨ w0.s.unint x = true := by
        intro x
        rw [hp]
        cases hide with
        | true => simp [mark_iff]
        | false => simp
      refine ⟨ih.parsed.trans (by rw [hp]), ih.seen.trans (by rw [hp]), ih.added.trans (by rw [hp]), ?_, ?_, ?_, ?_, ?_⟩
      · intro x
        rw [ih.unint x, hmem, hun]
        constructor
        · rintro ((h | h) | h)
          · exact .inr (.inl h)
          · exact .inl h
          · exact .inr (.inr h)
        · rintro (h | h | h)
          · exact .inl (.inr h)
          · exact .inl (.inl h)
          · exact .inr h
      · obtain ⟨l, h1, h2, h3⟩ := ih.input
        refine ⟨l ++ [c], ?_, ?_, ?_⟩
        · rw [h1, hp]; simp
        · rw [List.map_cons, List.reverse_cons]
          exact h2.append (List.Sublist.refl _)
        · intro x h hx
          rcases List.mem_cons.1 hx with e | hx
          · cases e; exact .inl (by simp)
          · rcases h3 x h hx with h | h
            · exact .inl (by simp [h])
            · rcases (hun x).1 h with ⟨rfl, _⟩ | h
              · exact .inl (by simp)
              · exact .inr h
      · intro h
        rcases ih.hid h with h | ⟨x, h⟩
        · rw [hp] at h
          simp only [Bool.or_eq_true] at h
          rcases h with h | h
          · exact .inl h
          · exact .inr ⟨c, (hmem c).2 (.inl ⟨rfl, h⟩)⟩
        · exact .inr ⟨x, (hmem x).2 (.inr h)⟩
      · rintro ⟨x, hx⟩
        -- the flag stays once it is set
        have stays : ∀ (calls : List (Nat × Bool)) (w : Pre), w.hid = true → (pushes w calls).hid = true := by
          intro calls
          induction calls with
          | nil => intro w h; exact h
          | cons a calls ih2 =>
            intro w h
            obtain ⟨a, b⟩ := a
            rw [pushes]
            refine ih2 _ ?_
            unfold pushOne
            split
            · exact h
            · simp [h]
        rcases (hmem x).1 hx with ⟨_, hh⟩ | hx
        · exact .inl (stays calls _ (by rw [hp]; simp [hh]))
        · rcases ih.hid' ⟨x, hx⟩ with h | ⟨y, h⟩
          · exact .inl h
          · rcases (hun y).1 h with ⟨_, hh⟩ | h
            · exact .inl (stays calls _ (by rw [hp]; simp [hh]))
            · exact .inr ⟨y, h⟩
      · intro h
        obtain ⟨h1, h2⟩ := ih.pushed h
        rw [hp] at h1
        simp only [Bool.or_eq_false_iff, Bool.not_eq_false'] at h1
        refine ⟨h1.1, ?_⟩
        intro x hx
        rcases List.mem_cons.1 hx with e | hx
        · cases e
          exact absurd h1.2 (by decide)
        · exact h2 x hx

/-- what gathering the commits given leaves -/
structure Gathered (g : Repo) (H : Nat → Prop) (cs : List Nat) (s : WS) (l : List Nat) (s' : WS) (l' : List Nat) : Prop where
  ok : ParsedOk g s'
  added : s'.added = s.added
  list : ∃ m, l' = l ++ m ∧ m.Sublist cs
  parsed : ∀ c ∈ l', s'.parsed c = true
  seen : ∀ c, s'.seen c = true ↔ c ∈ l'
  all : ∀ c ∈ cs, c ∈ l'
  nodup : l'.Nodup
  unint : ∀ c, s.unint c = true → s'.unint c = true
  ur : ∀ c, s'.unint c = true → ∃ h, H h ∧ Reaches g h c
  none : (∀ c, s.unint c = false) → ∀ c, s'.unint c = false

theorem gather_ok (hcl : Closed g) : ∀ (cs : List Nat) (s : WS) (l : List Nat), (∀ c ∈ cs, c < g.n) → ParsedOk g s → (∀ c ∈ l, s.parsed c = true) → (∀ c, s.seen c = true ↔ c ∈ l) →
    l.Nodup → (∀ c, s.unint c = true → ∃ h, H h ∧ Reaches g h c) →
    (gather g cs s l = .err (-1) ∧ ∃ c ∈ cs, g.parents c = none) ∨ ∃ s' l', gather g cs s l = .ok (s', l') ∧ Gathered g H cs s l s' l'
  | [], s, l, _, h1, h2, h3, h4, h5 => .inr ⟨s, l, rfl, h1, rfl, ⟨[], by simp, by simp⟩, h2, h3, by simp, h4, fun _ h => h, h5, fun h => h⟩
  | c :: cs, s, l, hlt, h1, h2, h3, h4, h5 => by
    rw [gather]
    rcases parse_cases g s c h1 with ⟨e, hn⟩ | ⟨e, ps, hps⟩
    · left; rw [e]; exact ⟨rfl, c, by simp, hn⟩
    rw [e, Res.bind_ok]
    have hok1 : ParsedOk g { s with parsed := mark s.parsed c } := parsedOk_mark h1 hps s.unint
    -- after marking
    obtain ⟨s1, e1, m1, m2, m3, m4, m5, m6⟩ : ∃ s1, (if s.unint c = true then markParents g c { s with parsed := mark s.parsed c } else Res.ok { s with parsed := mark s.parsed c }) = .ok s1 ∧
        s1.parsed = mark s.parsed c ∧ s1.seen = s.seen ∧ s1.added = s.added ∧ (∀ x, s.unint x = true → s1.unint x = true) ∧
        (∀ x, s1.unint x = true → ∃ h, H h ∧ Reaches g h x) ∧ ((∀ x, s.unint x = false) → ∀ x, s1.unint x = false) := by
      by_cases hu : s.unint c = true
      · rw [if_pos hu]
        obtain ⟨s1, k1, k2⟩ := markParents_ok hcl (hlt c (by simp)) { s with parsed := mark s.parsed c }
        refine ⟨s1, k1, k2.parsed, k2.seen, k2.added, k2.mono, ?_, fun hz => by rw [hz c] at hu; cases hu⟩
        intro x hx
        rcases k2.reach x hx with h | ⟨p, hp, hr⟩
        · exact h5 x h
        · obtain ⟨h, a, b⟩ := h5 c hu
          exact ⟨h, a, b.trans (kids_proper hp hr).reaches⟩
      · rw [if_neg hu]
        exact ⟨_, rfl, rfl, rfl, rfl, fun _ h => h, h5, fun hz => hz⟩
    rw [e1, Res.bind_ok]
    have hok2 : ParsedOk g s1 := by intro x hx; rw [m1] at hx; exact hok1 x hx
    by_cases hs : s1.seen c = true
    · rw [if_pos hs]
      have hcl' : c ∈ l := (h3 c).1 (by rw [← m2]; exact hs)
      rcases gather_ok hcl cs s1 l (fun x hx => hlt x (by simp [hx])) hok2 (fun x hx => by rw [m1]; exact mark_iff.2 (.inr (h2 x hx))) (by rw [m2]; exact h3) h4 m5 with
        ⟨k1, x, hx, k2⟩ | ⟨s', l', k1, k2⟩
      · exact .inl ⟨k1, x, by simp [hx], k2⟩
      · obtain ⟨m, hm1, hm2⟩ := k2.list
        refine .inr ⟨s', l', k1, k2.ok, k2.added.trans m3, ⟨m, hm1, hm2.trans (List.sublist_cons_self c cs)⟩, k2.parsed, k2.seen, ?_, k2.nodup, fun x hx => k2.unint x (m4 x hx), k2.ur, fun hz => k2.none (m6 hz)⟩
        intro x hx
        rcases List.mem_cons.1 hx with rfl | hx
        · rw [hm1]; exact List.mem_append_left _ hcl'
        · exact k2.all x hx
    · rw [if_neg hs]
      have hcl' : c ∉ l := fun h => hs (by rw [m2]; exact (h3 c).2 h)
      rcases gather_ok hcl cs { s1 with seen := mark s1.seen c } (l ++ [c]) (fun x hx => hlt x (by simp [hx])) hok2 (by
          intro x hx
          rw [List.mem_append, List.mem_singleton] at hx
          simp only; rw [m1]
          rcases hx with hx | rfl
          · exact mark_iff.2 (.inr (h2 x hx))
          · exact mark_iff.2 (.inl rfl)) (by
          intro x
          rw [mark_iff, m2, h3 x, List.mem_append, List.mem_singleton]; exact Or.comm) (by
          rw [List.nodup_append]
          refine ⟨h4, by simp, ?_⟩
          rintro a ha b hb rfl
          rw [List.mem_singleton] at hb; subst hb; exact hcl' ha) m5 with
        ⟨k1, x, hx, k2⟩ | ⟨s', l', k1, k2⟩
      · exact .inl ⟨k1, x, by simp [hx], k2⟩
      · obtain ⟨m, hm1, hm2⟩ := k2.list
        refine .inr ⟨s', l', k1, k2.ok, k2.added.trans m3, ⟨c :: m, by rw [hm1]; simp, hm2.cons_cons c⟩, k2.parsed, k2.seen, ?_, k2.nodup, fun x hx => k2.unint x (m4 x hx), k2.ur, fun hz => k2.none (m6 hz)⟩
        intro x hx
        rcases List.mem_cons.1 hx with rfl | hx
        · rw [hm1]; simp
        · exact k2.all x hx

/-- what is taken off the list was not hidden by the callback -/
theorem limitLoop_cb : ∀ (fuel : Nat) (l : List Nat) (s : WS) (slop : Nat) (T : Int) (out : List Nat) (s' : WS) (F : List Nat), (∀ x ∈ out, o.hides x = false) →
    limitLoop g o fuel l s slop T out = .ok (s', F) → ∀ x ∈ F, o.hides x = false
  | fuel, [], s, slop, T, out, s', F, h, he => by
    have e : limitLoop g o fuel [] s slop T out = .ok (s, out.reverse) := by cases fuel <;> rfl
    rw [e] at he
    cases he
    intro x hx; exact h x (List.mem_reverse.1 hx)
  | 0, _ :: _, _, _, _, _, _, _, _, he => by cases he
  | fuel + 1, c :: rest, s, slop, T, out, s', F, h, he => by
    rw [limitLoop] at he
    cases ha : addParents g o c s rest with
    | err e => rw [ha] at he; cases he
    | ub => rw [ha] at he; cases he
    | ok r =>
      rw [ha, Res.bind_ok] at he
      by_cases hu : r.1.unint c = true
      · rw [if_pos hu] at he
        cases hm : markParents g c r.1 with
        | err e => rw [hm] at he; cases he
        | ub => rw [hm] at he; cases he
        | ok s2 =>
          rw [hm, Res.bind_ok] at he
          by_cases hz : stillInteresting g s2 r.2 T slop = 0
          · rw [if_pos hz] at he
            cases he
            intro x hx; exact h x (List.mem_reverse.1 hx)
          · rw [if_neg hz] at he
            exact limitLoop_cb fuel _ _ _ _ _ _ _ h he
      · rw [if_neg hu] at he
        by_cases hh : o.hides c = true
        · rw [if_pos hh] at he
          exact limitLoop_cb fuel _ _ _ _ _ _ _ h he
        · rw [if_neg hh] at he
          refine limitLoop_cb fuel _ _ _ _ _ _ _ ?_ he
          intro x hx
          rcases List.mem_cons.1 hx with rfl | hx
          · simpa using hh
          · exact h x hx

theorem sum_le_of_subset (f : Nat → Nat) : ∀ {L M : List Nat}, L.Nodup → (∀ x ∈ L, x ∈ M) → (L.map f).sum ≤ (M.map f).sum
  | [], _, _, _ => by simp
  | a :: L, M, hn, hs => by
    have ha := hs a (by simp)
    rw [((List.perm_cons_erase ha).map f).sum_nat]
    rw [List.nodup_cons] at hn
    have := sum_le_of_subset f (M := M.erase a) hn.2 (fun x hx => (List.mem_erase_of_ne (by rintro rfl; exact hn.1 hx)).2 (hs x (by simp [hx])))
    simp only [List.map_cons, List.sum_cons]
    omega

theorem few (hf : FewChildren g) {s : WS} {L : List Nat} (hn : L.Nodup) (hlt : ∀ x ∈ L, x < g.n) (y : Nat) : childEdges g s L y < 65535 := by
  have h1 : childEdges g s L y ≤ (L.map fun x => ((g.parents x).getD []).count y).sum := by
    unfold childEdges
    clear hn hlt
    induction L with
    | nil => simp
    | cons a L ih =>
      simp only [List.map_cons, List.sum_cons]
      have : (kids g s a).count y ≤ ((g.parents a).getD []).count y := by
        unfold kids; split
        · exact Nat.le_refl _
        · simp
      omega
  have h2 := sum_le_of_subset (fun x => ((g.parents x).getD []).count y) hn (M := List.range g.n) (fun x hx => List.mem_range.2 (hlt x hx))
  have := hf y
  omega

end Verif.Revwalk
