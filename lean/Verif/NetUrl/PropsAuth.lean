import Verif.NetUrl.Props
/-! # C97: every authority that is read -/
namespace Verif.NetUrl
open Verif.NetHost

theorem back_userpass (ssh : Bool) : ∀ (l acc : Str) (a r : Auth), authority ssh .userpass l acc a = some r → ':' ∉ acc → a.user = [] → a.password = [] →
    r.host = a.host ∧ r.port = a.port ∧ UserPart (l.reverse ++ acc ++ ['@']) r.user r.password := by
  intro l
  induction l with
  | nil =>
    intro acc a r h h1 h2 h3
    unfold authority at h
    cases h
    exact ⟨rfl, rfl, .inr (.inl ⟨by simp, h3, h1⟩)⟩
  | cons c l ih =>
    intro acc a r h h1 h2 h3
    unfold authority at h
    split at h
    · simp at h
    · split at h
      · rename_i hc
        cases h
        exact ⟨rfl, rfl, .inr (.inr ⟨by simp [hc], h1⟩)⟩
      · rename_i hc
        have := ih (c :: acc) a r h (by simp only [List.mem_cons, not_or]; exact ⟨fun e => hc e.symm, h1⟩) h2 h3
        simpa using this

theorem back_hostEnd (ssh : Bool) (l acc : Str) (a r : Auth) (h : authority ssh .hostEnd l acc a = some r) (h2 : a.user = []) (h3 : a.password = []) :
    r.host = a.host ∧ r.port = a.port ∧ UserPart l.reverse r.user r.password := by
  cases l with
  | nil => unfold authority at h; cases h; exact ⟨rfl, rfl, .inl ⟨rfl, h2, h3⟩⟩
  | cons c l =>
    unfold authority at h
    split at h
    · rename_i hc
      have := back_userpass ssh l [] a r h (by simp) h2 h3
      simpa [hc] using this
    · simp at h

theorem back_ipv6 (ssh : Bool) : ∀ (l acc : Str) (a r : Auth), authority ssh .ipv6 l acc a = some r → (∀ c ∈ acc, hexColon c = true) → a.user = [] →
    a.password = [] → ∃ up, l.reverse ++ acc ++ [']'] = up ++ ('[' :: r.host ++ [']']) ∧ UserPart up r.user r.password ∧ r.port = a.port ∧
      ∀ c ∈ r.host, hexColon c = true := by
  intro l
  induction l with
  | nil => intro acc a r h; unfold authority at h; simp at h
  | cons c l ih =>
    intro acc a r h h1 h2 h3
    unfold authority at h
    split at h
    · rename_i hc
      obtain ⟨h4, h5, h6⟩ := back_hostEnd ssh l [] { a with host := acc } r h h2 h3
      dsimp only at h4 h5
      refine ⟨l.reverse, by simp [h4, hc], h6, h5, by rw [h4]; exact h1⟩
    · split at h
      · simp at h
      · rename_i hx
        have hx' : hexColon c = true := by simpa using hx
        obtain ⟨up, h4, h5⟩ := ih (c :: acc) a r h (by simp only [List.mem_cons, forall_eq_or_imp]; exact ⟨hx', h1⟩) h2 h3
        exact ⟨up, by simpa using h4, h5⟩

theorem hex_of {s : Str} (h : ∀ c ∈ s, hexColon c = true) :
    ∀ c ∈ s, ('0' ≤ c ∧ c ≤ '9') ∨ ('a' ≤ c ∧ c ≤ 'f') ∨ ('A' ≤ c ∧ c ≤ 'F') ∨ c = ':' := by
  intro c hc; simpa [hexColon] using h c hc

theorem hostStep_cases (c : Char) (acc : Str) (a : Auth) (s : St) (acc' : Str) (a' : Auth) (h : hostStep c acc a = some (s, acc', a')) :
    (c = ']' ∧ acc = [] ∧ s = .ipv6 ∧ acc' = [] ∧ a' = a) ∨ (c = '@' ∧ s = .userpass ∧ acc' = [] ∧ a' = { a with host := acc }) ∨
    ((∀ d ∈ [':', '@', '[', ']'], c ≠ d) ∧ s = .host ∧ acc' = c :: acc ∧ a' = a) := by
  unfold hostStep at h
  split at h
  · rename_i hc; cases h; exact .inl ⟨hc.1, hc.2, rfl, rfl, rfl⟩
  · split at h
    · rename_i hc; cases h; exact .inr (.inl ⟨hc, rfl, rfl, rfl⟩)
    · split at h
      · simp at h
      · rename_i h1 h2; cases h
        refine .inr (.inr ⟨?_, rfl, rfl, rfl⟩)
        intro d hd
        simp only [List.mem_cons, List.not_mem_nil, or_false] at hd
        rcases hd with rfl | rfl | rfl | rfl
        · exact fun e => h2 (.inr (.inr e))
        · exact h1
        · exact fun e => h2 (.inl e)
        · exact fun e => h2 (.inr (.inl e))

theorem back_host (ssh : Bool) : ∀ (l acc : Str) (a r : Auth), authority ssh .host l acc a = some r → (∀ c ∈ [':', '@', '[', ']'], c ∉ acc) → a.user = [] →
    a.password = [] → ∃ up ht, l.reverse ++ acc = up ++ ht ∧ UserPart up r.user r.password ∧ HostPart ht r.host ∧ r.port = a.port := by
  intro l
  induction l with
  | nil =>
    intro acc a r h h1 h2 h3
    unfold authority at h
    cases h
    exact ⟨[], acc, by simp, .inl ⟨rfl, h2, h3⟩, .inl ⟨rfl, h1⟩, rfl⟩
  | cons c l ih =>
    intro acc a r h h1 h2 h3
    unfold authority at h
    cases hs : hostStep c acc a with
    | none => rw [hs] at h; simp at h
    | some x =>
      obtain ⟨s, acc', a'⟩ := x
      rw [hs] at h
      dsimp only at h
      rcases hostStep_cases c acc a s acc' a' hs with ⟨e1, e2, e3, e4, e5⟩ | ⟨e1, e3, e4, e5⟩ | ⟨e1, e3, e4, e5⟩
      · subst e1 e2 e3 e4 e5
        obtain ⟨up, h4, h5, h6, h7⟩ := back_ipv6 ssh l [] _ r h (by simp) h2 h3
        exact ⟨up, _, by simpa using h4, h5, .inr ⟨rfl, hex_of h7⟩, h6⟩
      · subst e1 e3 e4 e5
        obtain ⟨h4, h5, h6⟩ := back_userpass ssh l [] _ r h (by simp) h2 h3
        dsimp only at h4 h5
        exact ⟨_, acc, by simp, h6, .inl ⟨h4.symm, by rw [h4]; exact h1⟩, h5⟩
      · subst e3 e4 e5
        obtain ⟨up, ht, h4, h5⟩ := ih (c :: acc) _ r h (by
          intro d hd hm
          rcases List.mem_cons.1 hm with rfl | hm
          · exact e1 d hd rfl
          · exact h1 d hd hm) h2 h3
        exact ⟨up, ht, by simpa using h4, h5⟩

theorem back_hostport (ssh : Bool) : ∀ (l acc : Str) (a r : Auth), authority ssh .hostport l acc a = some r → (∀ c ∈ acc, '0' ≤ c ∧ c ≤ '9') →
    a.user = [] → a.password = [] → a.port = [] → ∃ up ht pt, l.reverse ++ acc = up ++ ht ++ pt ∧ UserPart up r.user r.password ∧ HostPart ht r.host ∧
      PortPart pt r.port := by
  have digits : ∀ acc : Str, (∀ c ∈ acc, '0' ≤ c ∧ c ≤ '9') → ∀ c ∈ [':', '@', '[', ']'], c ∉ acc := by
    intro acc h c hc hm
    simp only [List.mem_cons, List.not_mem_nil, or_false] at hc
    rcases hc with rfl | rfl | rfl | rfl <;> exact absurd (h _ hm) (by decide)
  intro l
  induction l with
  | nil =>
    intro acc a r h h1 h2 h3 h4
    unfold authority at h
    cases h
    exact ⟨[], acc, [], by simp, .inl ⟨rfl, h2, h3⟩, .inl ⟨rfl, digits acc h1⟩, .inl ⟨rfl, h4⟩⟩
  | cons c l ih =>
    intro acc a r h h1 h2 h3 h4
    by_cases hc : c = ':'
    · unfold authority at h
      rw [if_pos hc] at h
      obtain ⟨up, ht, h5, h6, h7, h8⟩ := back_host ssh l [] _ r h (by simp) h2 h3
      dsimp only at h8
      refine ⟨up, ht, ':' :: acc, ?_, h6, h7, .inr ⟨by rw [h8], by rw [h8]; exact h1⟩⟩
      rw [← h5]; simp [hc]
    · by_cases hd : c < '0' ∨ '9' < c
      · have h' : authority ssh .host (c :: l) acc a = some r := by
          unfold authority at h ⊢
          rw [if_neg hc, if_pos hd] at h
          exact h
        obtain ⟨up, ht, h5, h6, h7, h8⟩ := back_host ssh (c :: l) acc a r h' (digits acc h1) h2 h3
        exact ⟨up, ht, [], by simpa using h5, h6, h7, .inl ⟨rfl, by rw [h8]; exact h4⟩⟩
      · unfold authority at h
        rw [if_neg hc, if_neg hd] at h
        have hd' : '0' ≤ c ∧ c ≤ '9' := by simpa [not_or] using hd
        obtain ⟨up, ht, pt, h5, h6⟩ := ih (c :: acc) a r h (by simp only [List.mem_cons, forall_eq_or_imp]; exact ⟨hd', h1⟩) h2 h3 h4
        exact ⟨up, ht, pt, by simpa using h5, h6⟩

/-- **C97**: every authority that is accepted is user part, host part and port part, one after the other -/
theorem C97_authority (ssh : Bool) (text : Str) (r : Auth) (h : authority ssh .hostport text.reverse [] ⟨[], [], [], []⟩ = some r) :
    ∃ up ht pt, text = up ++ ht ++ pt ∧ UserPart up r.user r.password ∧ HostPart ht r.host ∧ PortPart pt r.port := by
  have := back_hostport ssh text.reverse [] _ r h (by simp) rfl rfl rfl
  simpa using this

theorem tw_all (p : Char → Bool) (s : Str) : ∃ t, s = s.takeWhile p ++ t ∧ (∀ c ∈ s.takeWhile p, p c = true) ∧ (t = [] ∨ ∃ c r, t = c :: r ∧ p c = false) := by
  induction s with
  | nil => exact ⟨[], by simp⟩
  | cons x xs ih =>
    by_cases h : p x = true
    · obtain ⟨t, h1, h2, h3⟩ := ih
      refine ⟨t, ?_, ?_, h3⟩
      · rw [List.takeWhile_cons, if_pos h, List.cons_append]; exact congrArg _ h1
      · rw [List.takeWhile_cons, if_pos h]
        intro c hc
        rcases List.mem_cons.1 hc with rfl | hc
        · exact h
        · exact h2 c hc
    · refine ⟨x :: xs, ?_, ?_, .inr ⟨x, xs, rfl, by simpa using h⟩⟩
      · rw [List.takeWhile_cons, if_neg h]; rfl
      · rw [List.takeWhile_cons, if_neg h]; simp

theorem drop_tw (p : Char → Bool) (s t : Str) (h : s = s.takeWhile p ++ t) : s.drop (s.takeWhile p).length = t := by
  have := List.drop_left (l₁ := s.takeWhile p) (l₂ := t)
  rwa [← h] at this

/-- **C97**: how path, query and fragment are cut, whatever the text -/
theorem C97_rest (rest : Str) : CutRest rest (splitPath rest).1 (splitPath rest).2.1 (splitPath rest).2.2 := by
  obtain ⟨t, h1, h2, h3⟩ := tw_all (fun c => decide (c ≠ '?' ∧ c ≠ '#')) rest
  generalize hP : rest.takeWhile (fun c => decide (c ≠ '?' ∧ c ≠ '#')) = P at *
  have hq : '?' ∉ P := fun h => by simpa using h2 _ h
  have hh : '#' ∉ P := fun h => by simpa using h2 _ h
  have e : splitPath rest = (match (generalizing := false) t with
    | [] => (P, [], [])
    | c :: r => if c = '?' then (P, r.takeWhile (· ≠ '#'), r.drop ((r.takeWhile (· ≠ '#')).length + 1)) else (P, [], r)) := by
    unfold splitPath
    dsimp only
    rw [hP]
    conv => lhs; rw [h1, List.drop_left]
    rfl
  rcases h3 with rfl | ⟨c, r, rfl, hc⟩
  · rw [e]
    exact ⟨hq, hh, by simp, [], [], by simpa using h1, .inl ⟨rfl, rfl⟩, .inl ⟨rfl, rfl⟩⟩
  · by_cases hcq : c = '?'
    · subst hcq
      rw [e]
      dsimp only
      rw [if_pos rfl]
      obtain ⟨t', k1, k2, k3⟩ := tw_all (· ≠ '#') r
      generalize hQ : r.takeWhile (· ≠ '#') = Q at *
      have hqh : '#' ∉ Q := fun h => by simpa using k2 _ h
      rcases k3 with rfl | ⟨c', r', rfl, hc'⟩
      · refine ⟨hq, hh, hqh, '?' :: Q, [], by rw [h1, k1]; simp, .inr rfl, .inl ⟨rfl, ?_⟩⟩
        rw [k1]; simp
      · have : c' = '#' := by simpa using hc'
        subst this
        refine ⟨hq, hh, hqh, '?' :: Q, '#' :: r', by rw [h1, k1]; simp, .inr rfl, .inr ?_⟩
        rw [k1]; simp [List.drop_append]
    · have : c = '#' := by
        simp only [ne_eq, decide_eq_false_iff_not, not_and, not_not] at hc
        exact hc hcq
      subst this
      rw [e]
      dsimp only
      rw [if_neg hcq]
      exact ⟨hq, hh, by simp, [], '#' :: r, by simpa using h1, .inl ⟨rfl, rfl⟩, .inr rfl⟩

/-- **C97**: every text that is accepted is cut in one of two ways, and what is read comes from the pieces -/
theorem C97_cut (s : Str) (u : Url) (h : parse s = some u) :
    ∃ scheme auth rest slashes, Cut s scheme auth rest slashes ∧ parseRest scheme auth rest slashes = some u := by
  unfold parse at h
  split at h
  · simp at h
  · dsimp only at h
    obtain ⟨t, h1, h2, _⟩ := tw_all (fun c => decide (SchemeChar c)) s
    have h2' : ∀ c ∈ s.takeWhile (fun c => decide (SchemeChar c)), SchemeChar c := fun c hc => by simpa using h2 c hc
    have hd : s.drop (s.takeWhile (fun c => decide (SchemeChar c))).length = t := drop_tw _ s t h1
    generalize s.takeWhile (fun c => decide (SchemeChar c)) = P at *
    rw [hd] at h
    split at h
    · rename_i r
      split at h
      · rename_i r'
        split at h
        · rename_i hne
          obtain ⟨t', k1, k2, k3⟩ := tw_all (· ≠ '/') r'
          have hdr : r'.drop (r'.takeWhile (· ≠ '/')).length = t' := drop_tw _ r' t' k1
          rw [hdr] at h
          generalize r'.takeWhile (· ≠ '/') = A at *
          refine ⟨P, A, t', true, ⟨h2', .inl ⟨rfl, hne, by rw [h1, k1]; simp, fun hm => by simpa using k2 _ hm, ?_⟩⟩, h⟩
          rcases k3 with rfl | ⟨c, r2, rfl, hc⟩
          · exact .inl rfl
          · right
            have : c = '/' := by simpa using hc
            subst this; simp
        · exact ⟨P, [], _, false, ⟨h2', .inr ⟨rfl, rfl, .inl h1⟩⟩, h⟩
      · exact ⟨P, [], _, false, ⟨h2', .inr ⟨rfl, rfl, .inl h1⟩⟩, h⟩
    · exact ⟨[], [], s, false, ⟨by simp, .inr ⟨rfl, rfl, .inr ⟨rfl, rfl⟩⟩⟩, h⟩

/-- **C97, a finding**: only a slash ends an authority, so that what other programs take for query or fragment is read as user or host; and user and password
are split at the last colon -/
theorem C97_other_host : (parse "http://a.org#@b.org/x".toList).map (fun u => (u.username, u.host)) = some (some "a.org#".toList, some "b.org".toList) ∧
    (parse "http://a.org?@b.org/x".toList).map (·.host) = some (some "b.org".toList) ∧
    (parse "http://a.org?q".toList).map (·.host) = some (some "a.org?q".toList) ∧
    (parse "http://u:p:q@a.org".toList).map (fun u => (u.username, u.password)) = some (some "u:p".toList, some "q".toList) := by decide +kernel

end Verif.NetUrl
