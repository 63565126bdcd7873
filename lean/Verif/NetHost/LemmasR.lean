import Verif.NetHost.LemmasP
namespace Verif.NetHost

theorem drop_suffix (p e : Str) : (e.length ≤ p.length ∧ p.drop (p.length - e.length) = e) ↔ e <:+ p := by
  constructor
  · rintro ⟨_, h⟩
    refine ⟨p.take (p.length - e.length), ?_⟩
    have := List.take_append_drop (p.length - e.length) p
    rwa [h] at this
  · rintro ⟨b, rfl⟩; simp

/-- cutting the end off -/
theorem cut_ok {u v : Url} {b e : Str} (h : cut u (b ++ e) ((b ++ e).length - e.length) = .ok v) :
    v = { u with path := some (if b = [] then (b ++ e).take 1 else b), query := none } := by
  have e1 : (b ++ e).length - e.length = b.length := by simp
  unfold cut at h
  rw [e1] at h
  by_cases hb : b = []
  · subst hb
    simp only [List.length_nil, if_true] at h
    split at h
    · simp at h
    · simp only [Res.ok.injEq] at h; rw [← h]; simp
  · simp only [List.length_eq_zero_iff, hb, if_false] at h
    split at h
    · simp at h
    · simp only [Res.ok.injEq] at h; rw [← h]; simp [hb]

theorem cut_not_ub {u : Url} {p : Str} {t : Nat} (hp : p ≠ []) (ht : t ≤ p.length) : ∃ v, cut u p t = .ok v := by
  unfold cut
  have : 0 < p.length := List.length_pos_iff.2 hp
  dsimp only
  split
  · rw [if_neg (by omega)]; exact ⟨_, rfl⟩
  · rw [if_neg (by omega)]; exact ⟨_, rfl⟩

theorem sfx (s : Str) : ('?' ∉ s ∧ s.takeWhile (· ≠ '?') = s) ∨
    (∃ e q, s = e ++ '?' :: q ∧ '?' ∉ e ∧ s.takeWhile (· ≠ '?') = e ∧ s.drop (e.length + 1) = q ∧ e.length ≠ s.length) := by
  obtain ⟨t, h1, h2, h3⟩ := tw_split '?' s
  generalize hD : s.takeWhile (· ≠ '?') = D at *
  subst h1
  rcases h3 with rfl | ⟨t', rfl⟩
  · left; simpa using h2
  · right; exact ⟨D, t', rfl, h2, rfl, by simp [List.drop_append], by simp⟩

theorem second_ok {u v : Url} {p s : Str} (h : second u p s = .ok v) (hu : u.path = some p)
    (hn : ∀ e q, e ≠ [] → s = e ++ '?' :: q → '?' ∉ e → e <:+ p → u.query ≠ some q) :
    ∃ p', v = { u with path := some p', query := v.query } ∧ Strip s p u.query p' v.query := by
  unfold second at h
  simp only [drop_suffix] at h
  by_cases hs : s <:+ p
  · rw [if_pos hs] at h
    obtain ⟨b, rfl⟩ := hs
    have := cut_ok h
    subst this
    exact ⟨_, rfl, .inl ⟨b, s, rfl, rfl, rfl, .inl rfl⟩⟩
  · rw [if_neg hs] at h
    cases h
    exact ⟨p, by cases u; simp_all, .inr ⟨hs, hn, rfl, rfl⟩⟩

theorem remove_ok {u v : Url} {s : Str} (h : removeServiceSuffix u s = .ok v) :
    ∃ p p', u.path = some p ∧ v = { u with path := some p', query := v.query } ∧ Strip s p u.query p' v.query := by
  unfold removeServiceSuffix at h
  cases hp : u.path with
  | none => rw [hp] at h; simp at h
  | some p =>
    rw [hp] at h
    refine ⟨p, ?_⟩
    suffices H : ∃ p', v = { u with path := some p', query := v.query } ∧ Strip s p u.query p' v.query by
      obtain ⟨p', h⟩ := H; exact ⟨p', rfl, h⟩
    dsimp only at h
    simp only [drop_suffix] at h
    rcases sfx s with ⟨h1, h2⟩ | ⟨e, q, h1, h2, h3, h4, h5⟩
    · rw [h2] at h
      split at h
      · rename_i hc
        rw [if_pos rfl] at h
        obtain ⟨b, rfl⟩ := hc.2
        have := cut_ok h
        subst this
        exact ⟨_, rfl, .inl ⟨b, s, rfl, rfl, rfl, .inl rfl⟩⟩
      · refine second_ok h hp ?_
        intro e q _ hs; subst hs; simp at h1
    · rw [h3] at h
      have uniq : ∀ e' q', s = e' ++ '?' :: q' → '?' ∉ e' → e' = e ∧ q' = q := by
        intro e' q' hs he
        have a := tw_app '?' e' ('?' :: q') he (.inr ⟨_, rfl⟩)
        rw [← hs, h3] at a
        subst a
        rw [h1] at hs
        simpa using hs.symm
      split at h
      · rename_i hc
        simp only [h5, if_false, h4] at h
        have hne : e ≠ [] := fun x => hc.1 (by simp [x])
        cases hq : u.query with
        | none => rw [hq] at h; simp at h
        | some x =>
          rw [hq] at h
          dsimp only at h
          split at h
          · rename_i hx
            obtain ⟨b, rfl⟩ := hc.2
            have := cut_ok h
            subst this
            exact ⟨_, rfl, .inl ⟨b, e, rfl, rfl, rfl, .inr ⟨hne, q, h1, h2, by rw [hx]⟩⟩⟩
          · rename_i hx
            have := second_ok h hp ?_
            · rwa [hq] at this
            · intro e' q' _ hs he _
              rw [(uniq e' q' hs he).2, hq]
              simpa using hx
      · rename_i hc
        refine second_ok h hp ?_
        intro e' q' hne hs he hsuf
        exact absurd ⟨by rw [(uniq e' q' hs he).1] at hne; simpa using hne, (uniq e' q' hs he).1 ▸ hsuf⟩ hc

/-- when the removal of the suffix is defined -/
theorem remove_def {u : Url} {s p : Str} (hp : u.path = some p) (hne : p ≠ [])
    (hq : u.query ≠ none ∨ ∀ e q, s = e ++ '?' :: q → '?' ∉ e → e ≠ [] → ¬ e <:+ p) : ∃ v, removeServiceSuffix u s = .ok v := by
  have hsec : ∃ v, second u p s = .ok v := by
    unfold second
    split
    · exact cut_not_ub hne (by omega)
    · exact ⟨_, rfl⟩
  unfold removeServiceSuffix
  rw [hp]
  dsimp only
  simp only [drop_suffix]
  rcases sfx s with ⟨h1, h2⟩ | ⟨e, q, h1, h2, h3, h4, h5⟩
  · rw [h2]
    split
    · rw [if_pos rfl]; exact cut_not_ub hne (by omega)
    · exact hsec
  · rw [h3]
    split
    · rename_i hc
      cases hx : u.query with
      | none =>
        rcases hq with hq | hq
        · exact absurd hx hq
        · exact absurd hc.2 (hq e q h1 h2 (fun x => hc.1 (by simp [x])))
      | some x =>
        dsimp only
        split
        · exact cut_not_ub hne (by omega)
        · exact hsec
    · exact hsec

/-- the first look at a query that is not there -/
theorem remove_ub {u : Url} {e q p : Str} (hp : u.path = some p) (hq : u.query = none) (he : e ≠ []) (h2 : '?' ∉ e) (hs : e <:+ p) :
    removeServiceSuffix u (e ++ '?' :: q) = .ub := by
  unfold removeServiceSuffix
  rw [hp]
  dsimp only
  rw [tw_app '?' e ('?' :: q) h2 (.inr ⟨_, rfl⟩)]
  simp only [drop_suffix]
  rw [if_pos ⟨by simpa using he, hs⟩, if_neg (by simp), hq]

end Verif.NetHost
