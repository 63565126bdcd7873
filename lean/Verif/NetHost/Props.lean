import Verif.NetHost.Lemmas
import Verif.NetHost.LemmasR
/-! # C94, C95, C96: names in certificates, `no_proxy`, redirects -/
namespace Verif.NetHost

/-- **C94**: a name that is accepted is one the pattern stands for -/
theorem C94_sound (pattern host : Str) (h : matchesCert pattern host = true) : Stands pattern host := matchesCert_sound pattern host h

/-- **C94**: without a star, a pattern is for its own name in any case, and for that only -/
theorem C94_exact (pattern host : Str) (hp : '*' ∉ pattern) : matchesCert pattern host = true ↔ SameName pattern host :=
  matchesCert_exact pattern hp host

/-- **C94**: `*.domain` is for the names of one label before `.domain`, and for them only -/
theorem C94_wildcard (domain host : Str) (hd : '*' ∉ domain) : matchesCert ('*' :: '.' :: domain) host = true ↔
    ∃ l e, Label l ∧ host = l ++ '.' :: e ∧ SameName domain e := matchesCert_wildcard domain hd host

/-- **C94**: a pattern that does not end in a star is for names with as many dots only -/
theorem C94_dots (pattern host : Str) (h : matchesCert pattern host = true) (hp : ¬ ['*'] <:+ pattern) :
    host.count '.' = pattern.count '.' := (C94_sound pattern host h).dots hp

/-- **C94**: what follows the last star of a pattern is the end of every name accepted -/
theorem C94_domain (a d host : Str) (h : matchesCert (a ++ d) host = true) (hd : '*' ∉ d) : ∃ x e, host = x ++ e ∧ SameName d e :=
  (C94_sound _ host h).tail a d rfl hd

/-- **C94, a finding**: a pattern that ends in a star is for names under other domains: what is before it is all that counts -/
theorem C94_last_star (a rest : Str) (ha : '*' ∉ a) : matchesCert (a ++ ['*']) (a ++ rest) = true := by
  induction a with
  | nil => exact mc_last _ (by decide) _
  | cons x xs ih =>
    simp only [List.mem_cons, not_or] at ha
    have hs : ¬ lower x = '*' := fun e => ha.1 ((lower_star x).1 e).symm
    rw [List.cons_append, List.cons_append, mc_char _ _ _ _ hs, if_neg (by simp)]
    exact ih ha.2

/-- **C94, a finding**: a star stands for nothing, too -/
theorem C94_empty_label (domain : Str) (hd : '*' ∉ domain) : matchesCert ('*' :: '.' :: domain) ('.' :: domain) = true :=
  (C94_wildcard domain _ hd).2 ⟨[], domain, by simp [Label], rfl, rfl⟩

/-- **C95**: whether a url matches a pattern of `no_proxy` -/
theorem C95_pattern (host port pat : Str) : matchesPattern host port pat = true ↔ Pattern host port pat := matchesPattern_iff host port pat

/-- **C95**: a url matches a list if it matches one of the pieces between its commas -/
theorem C95_list (host port list : Str) :
    matchesPatternList host port list = true ↔ ∃ p, Piece list p ∧ Pattern host port p := matchesList_iff host port _ list (by omega)

/-- **C96**: a redirect that is followed keeps what it has to: to a path, everything but the path; to a url, everything of that url, whose scheme is
the old one or https, and whose host is the old one in any case, unless others are allowed -/
theorem C96_redirect (parse : Str → Option Url) (u v : Url) (loc : Str) (offsite : Bool) (suffix : Option Str)
    (h : applyRedirect parse u loc offsite suffix = .ok v) :
    ∃ t, (['/'] <+: loc ∧ t = { u with path := some loc } ∨
        ¬ ['/'] <+: loc ∧ parse loc = some t ∧
          (∀ a, u.scheme = some a → t.scheme = some a ∨ t.scheme = some ['h', 't', 't', 'p', 's']) ∧
          (∀ a, u.host = some a → offsite = true ∨ ∃ b, t.host = some b ∧ SameName a b)) ∧
      v = { t with path := v.path, query := v.query } ∧
      (suffix = none → v = t) ∧
      (∀ s, suffix = some s → ∃ p p', t.path = some p ∧ v.path = some p' ∧ Strip s p t.query p' v.query) := by
  have fin : ∀ t, finish t suffix = .ok v → v = { t with path := v.path, query := v.query } ∧ (suffix = none → v = t) ∧
      (∀ s, suffix = some s → ∃ p p', t.path = some p ∧ v.path = some p' ∧ Strip s p t.query p' v.query) := by
    intro t ht
    cases suffix with
    | none => simp only [finish, Res.ok.injEq] at ht; subst ht; exact ⟨rfl, fun _ => rfl, fun s hs => by simp at hs⟩
    | some s =>
      obtain ⟨p, p', h1, h2, h3⟩ := remove_ok (show removeServiceSuffix t s = .ok v from ht)
      have hv : v.path = some p' := by rw [h2]
      refine ⟨?_, fun hs => by simp at hs, fun s' hs' => ?_⟩
      · rw [hv]; exact h2
      · cases hs'; exact ⟨p, p', h1, hv, h3⟩
  have first : loc[0]? = some '/' ↔ ['/'] <+: loc := by
    cases loc with
    | nil => simp
    | cons x xs => simp [List.cons_prefix_cons, eq_comm]
  unfold applyRedirect at h
  by_cases h0 : loc[0]? = some '/'
  · rw [if_pos h0] at h
    exact ⟨_, .inl ⟨first.1 h0, rfl⟩, fin _ h⟩
  · rw [if_neg h0] at h
    cases hp : parse loc with
    | none => rw [hp] at h; simp at h
    | some t =>
      rw [hp] at h
      simp only [replaceUrl] at h
      cases hs : schemeBad u t with
      | none => rw [hs] at h; simp at h
      | some b1 =>
        cases b1 with
        | true => rw [hs] at h; simp at h
        | false =>
          rw [hs] at h
          dsimp only at h
          cases hh : hostBad u t offsite with
          | none => rw [hh] at h; simp at h
          | some b2 =>
            cases b2 with
            | true => rw [hh] at h; simp at h
            | false =>
              rw [hh] at h
              refine ⟨t, .inr ⟨fun x => h0 (first.2 x), rfl, ?_, ?_⟩, fin t h⟩
              · intro a ha
                unfold schemeBad at hs
                rw [ha] at hs
                cases hb : t.scheme with
                | none => rw [hb] at hs; simp at hs
                | some b =>
                  rw [hb] at hs
                  simp only [Option.some.injEq, decide_eq_false_iff_not] at hs
                  by_cases e : a = b
                  · exact .inl (by rw [e])
                  · exact .inr (by rw [not_and] at hs; rw [not_not.1 (hs e)])
              · intro a ha
                cases offsite with
                | true => exact .inl rfl
                | false =>
                  right
                  unfold hostBad at hh
                  rw [ha] at hh
                  simp only [Bool.false_eq_true, if_false] at hh
                  cases hb : t.host with
                  | none => rw [hb] at hh; simp at hh
                  | some b =>
                    rw [hb] at hh
                    simp only [Option.some.injEq, decide_eq_false_iff_not] at hh
                    exact ⟨b, rfl, not_not.1 hh⟩

/-- **C96**: nothing that was reached by https is asked for without it -/
theorem C96_no_downgrade (parse : Str → Option Url) (u v : Url) (loc : Str) (offsite : Bool) (suffix : Option Str)
    (hu : u.scheme = some ['h', 't', 't', 'p', 's']) (h : applyRedirect parse u loc offsite suffix = .ok v) :
    v.scheme = some ['h', 't', 't', 'p', 's'] := by
  obtain ⟨t, h1, h2, _⟩ := C96_redirect parse u v loc offsite suffix h
  rw [h2]
  rcases h1 with ⟨_, rfl⟩ | ⟨_, _, h3, _⟩
  · exact hu
  · exact (h3 _ hu).elim id id

/-- **C96**: the path is not empty after the path of the service was taken off one that was not -/
theorem C96_path (s P : Str) (Q : Option Str) (P' : Str) (Q' : Option Str) (h : Strip s P Q P' Q') (hP : P ≠ []) : P' ≠ [] := by
  rcases h with ⟨b, e, h1, h2, _⟩ | ⟨_, _, h3, _⟩
  · rw [h2]
    split
    · cases P with
      | nil => exact absurd rfl hP
      | cons x xs => simp
    · assumption
  · rw [h3]; exact hP

/-- **C96**: a redirect that is refused leaves the url as it was -/
theorem C96_refused (parse : Str → Option Url) (u v : Url) (loc : Str) (offsite : Bool) (suffix : Option Str)
    (h : applyRedirect parse u loc offsite suffix = .error v) : v = u := by
  have hc : ∀ (x : Url) p t w, cut x p t ≠ .error w := by
    intro x p t w e; unfold cut at e; dsimp only at e; split at e <;> split at e <;> simp at e
  have hsec : ∀ (x : Url) p s w, second x p s ≠ .error w := by
    intro x p s w e; unfold second at e; split at e
    · exact hc _ _ _ _ e
    · simp at e
  have hf : ∀ (x : Url) w, finish x suffix ≠ .error w := by
    intro x w e
    unfold finish at e
    split at e
    · simp at e
    · unfold removeServiceSuffix at e
      split at e
      · simp at e
      · dsimp only at e
        split at e
        · split at e
          · exact hc _ _ _ _ e
          · split at e
            · simp at e
            · split at e
              · exact hc _ _ _ _ e
              · exact hsec _ _ _ _ e
        · exact hsec _ _ _ _ e
  unfold applyRedirect at h
  split at h
  · exact absurd h (hf _ _)
  · split at h
    · simpa using h.symm
    · unfold replaceUrl at h
      split at h
      · simp at h
      · simpa using h.symm
      · split at h
        · simp at h
        · simpa using h.symm
        · exact absurd h (hf _ _)

/-- what a redirect needs so that no NULL is looked at: the new url has scheme, host and path, and a query if its path ends in that of the service -/
def Complete (u t : Url) (offsite : Bool) (suffix : Option Str) : Prop :=
  (u.scheme ≠ none → t.scheme ≠ none) ∧ (u.host ≠ none → offsite = false → t.host ≠ none) ∧
  ∀ s, suffix = some s → ∃ p, t.path = some p ∧ p ≠ [] ∧ (t.query ≠ none ∨ ∀ e q, s = e ++ '?' :: q → '?' ∉ e → e ≠ [] → ¬ e <:+ p)

/-- **C96**: a redirect to a complete url is followed or refused -/
theorem C96_defined (parse : Str → Option Url) (u : Url) (loc : Str) (offsite : Bool) (suffix : Option Str)
    (h : ∀ t, (if ['/'] <+: loc then t = { u with path := some loc } else parse loc = some t) → Complete u t offsite suffix) :
    applyRedirect parse u loc offsite suffix ≠ .ub := by
  have hf : ∀ t, Complete u t offsite suffix → finish t suffix ≠ .ub := by
    intro t ht e
    cases hs : suffix with
    | none => rw [hs] at e; simp [finish] at e
    | some s =>
      rw [hs] at e
      obtain ⟨p, h1, h2, h3⟩ := ht.2.2 s hs
      obtain ⟨v, hv⟩ := remove_def h1 h2 h3
      simp only [finish] at e
      rw [hv] at e; simp at e
  have first : loc[0]? = some '/' ↔ ['/'] <+: loc := by
    cases loc with
    | nil => simp
    | cons x xs => simp [List.cons_prefix_cons, eq_comm]
  unfold applyRedirect
  by_cases h0 : loc[0]? = some '/'
  · rw [if_pos h0]
    exact hf _ (h _ (by rw [if_pos (first.1 h0)]))
  · rw [if_neg h0]
    cases hp : parse loc with
    | none => simp
    | some t =>
      have ht := h t (by rw [if_neg (fun x => h0 (first.2 x))]; exact hp)
      dsimp only
      unfold replaceUrl
      cases hs : schemeBad u t with
      | none =>
        unfold schemeBad at hs
        split at hs
        · simp at hs
        · rename_i a b; exact absurd b (ht.1 (by rw [a]; simp))
        · simp at hs
      | some b1 =>
        cases b1 with
        | true => simp
        | false =>
          dsimp only
          cases hh : hostBad u t offsite with
          | none =>
            unfold hostBad at hh
            split at hh
            · simp at hh
            · rename_i a ha
              split at hh
              · simp at hh
              · rename_i ho
                split at hh
                · rename_i hb; exact absurd hb (ht.2.1 (by rw [ha]; simp) (by simpa using ho))
                · simp at hh
          | some b2 => cases b2 with
            | true => simp
            | false => exact hf t ht

/-- **C96, a finding**: a url whose path ends in that of the service, but without the query, is looked at where it is NULL. Servers send that: the code is
meant for it -/
theorem C96_no_query (parse : Str → Option Url) (u t : Url) (loc e q p host : Str) (offsite : Bool)
    (hl : ¬ ['/'] <+: loc) (hp : parse loc = some t) (hs : u.scheme = t.scheme) (hn : t.scheme ≠ none) (hh : u.host = some host) (ht : t.host = some host)
    (htp : t.path = some p) (hq : t.query = none) (he : e ≠ []) (h2 : '?' ∉ e) (hsuf : e <:+ p) :
    applyRedirect parse u loc offsite (some (e ++ '?' :: q)) = .ub := by
  have first : ¬ loc[0]? = some '/' := by
    intro x; apply hl
    cases loc with
    | nil => simp at x
    | cons y ys => simp at x; simp [x]
  have h1 : schemeBad u t = some false := by
    unfold schemeBad; rw [hs]
    cases h : t.scheme with
    | none => exact absurd h hn
    | some a => simp
  have h3 : hostBad u t offsite = some false := by
    unfold hostBad; rw [hh, ht]; cases offsite <;> simp
  unfold applyRedirect
  rw [if_neg first, hp]
  simp only [replaceUrl, h1, h3, finish]
  exact remove_ub htp hq he h2 hsuf

/-- **C96, a finding**: the same with a redirect to a path, for a url without a query -/
theorem C96_no_query_path (parse : Str → Option Url) (u : Url) (loc e q : Str) (offsite : Bool)
    (hl : ['/'] <+: loc) (hq : u.query = none) (he : e ≠ []) (h2 : '?' ∉ e) (hsuf : e <:+ loc) :
    applyRedirect parse u loc offsite (some (e ++ '?' :: q)) = .ub := by
  obtain ⟨x, rfl⟩ := hl
  unfold applyRedirect
  rw [if_pos (by simp)]
  exact remove_ub (u := { u with path := some (['/'] ++ x) }) rfl hq he h2 hsuf

/-- **C96, a finding**: a location that is parsed without a scheme (a relative path, that does not begin with a slash) is compared where it is NULL -/
theorem C96_no_scheme (parse : Str → Option Url) (u t : Url) (loc a : Str) (offsite : Bool) (suffix : Option Str)
    (hl : ¬ ['/'] <+: loc) (hp : parse loc = some t) (hs : u.scheme = some a) (hn : t.scheme = none) :
    applyRedirect parse u loc offsite suffix = .ub := by
  have first : ¬ loc[0]? = some '/' := by
    intro x; apply hl
    cases loc with
    | nil => simp at x
    | cons y ys => simp at x; simp [x]
  unfold applyRedirect
  rw [if_neg first, hp]
  simp [replaceUrl, schemeBad, hs, hn]

/-! ## Examples -/

/-- the tests of the library -/
example : [("*.example.org", "www.example.org"), ("*.foo.example.org", "www.foo.example.org"), ("*.foo.example.org", "foo.example.org"),
    ("*.foo.example.org", "www.example.org"), ("*.example.org", "example.org"), ("*.example.org", "www.foo.example.org"),
    ("WWW.Example.org", "www.exAmple.ORG"), ("w*w.example.org", "waw.example.org"), ("*", "a.b"), ("*ob.c", "foob.c"), ("*A.c", "xa.c")].map
    (fun x => matchesCert x.1.toList x.2.toList) = [true, true, false, false, false, false, true, true, true, false, false] := by decide +kernel
/-- a pattern that meets the hypotheses of C94_dots and C94_domain -/
example : matchesCert "a*.example.org".toList "Abc.example.org".toList = true ∧ ¬ ['*'] <:+ "a*.example.org".toList := by
  constructor
  · decide +kernel
  · decide +kernel
/-- patterns of `no_proxy` -/
example : ["*", "foo.com", "*.com", ".com", ".foo.com", "*.foo.com:80", "foo.com:443", "bar.com,.com", "", ",,", " foo.com", "Foo.com", "*oo.com", "oo.com",
    "foo.com:"].map (fun x => matchesPatternList "foo.com".toList "80".toList x.toList) =
    [true, true, true, true, true, true, false, true, false, false, false, false, false, false, true] := by decide +kernel
/-- a star is a wildcard at the end of no pattern of `no_proxy` but its own -/
example : matchesPatternList "foo.com".toList "80".toList "foo.*".toList = false := by decide +kernel

/-- a url for the examples -/
def exUrl (scheme host path : String) (query : Option String) : Url :=
  ⟨some scheme.toList, none, none, some host.toList, some "443".toList, some path.toList, query.map String.toList, none, false⟩
/-- a parser for the examples -/
def exParse (t : Url) : Str → Option Url := fun _ => some t
/-- the path of the service -/
def exSfx : Str := "/info/refs?service=git-upload-pack".toList

/-- followed: the query in a part of its own -/
example : applyRedirect (exParse (exUrl "https" "A.org" "/new/info/refs" (some "service=git-upload-pack"))) (exUrl "http" "a.org" "/old" none)
    "https://A.org/new/info/refs?service=git-upload-pack".toList false (some exSfx) = .ok (exUrl "https" "A.org" "/new" none) := by decide +kernel
/-- followed: only the root is left -/
example : applyRedirect (exParse (exUrl "https" "a.org" "/info/refs" (some "service=git-upload-pack"))) (exUrl "http" "a.org" "/old" none)
    "https://a.org/info/refs?service=git-upload-pack".toList false (some exSfx) = .ok (exUrl "https" "a.org" "/" none) := by decide +kernel
/-- followed: to a path that has the query in it -/
example : applyRedirect (exParse (exUrl "https" "a.org" "/" none)) (exUrl "https" "a.org" "/old" none)
    "/new/info/refs?service=git-upload-pack".toList false (some exSfx) = .ok (exUrl "https" "a.org" "/new" none) := by decide +kernel
/-- followed: another service, nothing is taken off -/
example : applyRedirect (exParse (exUrl "https" "a.org" "/new/info/refs" (some "x"))) (exUrl "https" "b.org" "/old" none)
    "https://a.org/new/info/refs?x".toList true (some exSfx) = .ok (exUrl "https" "a.org" "/new/info/refs" (some "x")) := by decide +kernel
/-- refused: another host, a scheme without encryption -/
example : applyRedirect (exParse (exUrl "https" "b.org" "/new" none)) (exUrl "https" "a.org" "/old" none) "https://b.org/new".toList false none =
      .error (exUrl "https" "a.org" "/old" none) ∧
    applyRedirect (exParse (exUrl "http" "a.org" "/new" none)) (exUrl "https" "a.org" "/old" none) "http://a.org/new".toList true none =
      .error (exUrl "https" "a.org" "/old" none) := by decide +kernel
/-- the case of C96_no_query -/
example : applyRedirect (exParse (exUrl "https" "a.org" "/new/info/refs" none)) (exUrl "https" "a.org" "/old" none)
    "https://a.org/new/info/refs".toList false (some exSfx) = .ub := by decide +kernel

end Verif.NetHost
