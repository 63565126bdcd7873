import Verif.NetUrl.Lemmas
import Verif.NetHost.Props
/-! # C97: reading urls, and redirects with the urls that are read -/
namespace Verif.NetUrl
open Verif.NetHost

theorem lower_nul (s : Str) (h : '\x00' ∉ s) : '\x00' ∉ s.map lower := by
  intro hm
  obtain ⟨c, hc, e⟩ := List.mem_map.1 hm
  rw [lower_eq_iff _ _ (by decide)] at e
  exact h (e ▸ hc)

/-- the ports of the model are those of the specification -/
theorem portOf_eq : portOf = defaultPort := rfl

/-- **C97**: a url that is put together of plain parts is read as these parts -/
theorem C97_parts (x : Parts) (hx : x.Plain) : parse x.text = some x.url := by
  obtain ⟨hs1, hs2⟩ := hx.scheme
  have hcolon : ¬ SchemeChar ':' := by decide
  generalize hA : userText x.user ++ x.host ++ opt ':' x.port = A
  generalize hP : x.path ++ opt '?' x.query ++ opt '#' x.fragment = P
  have htext : x.text = x.scheme ++ ':' :: '/' :: '/' :: (A ++ P) := by
    unfold Parts.text
    rw [hA, ← hP]
    simp
  have hsch : x.text.takeWhile (fun c => decide (SchemeChar c)) = x.scheme := by
    rw [htext]
    apply tw
    · intro c hc; simpa using hs2 c hc
    · intro c r h; simp at h; rw [← h.1]; simpa using hcolon
  have hslash : ∀ c ∈ A, c ≠ '/' := by
    rw [← hA]
    intro c hc
    simp only [List.mem_append] at hc
    rcases hc with (hc | hc) | hc
    · cases hu : x.user with
      | none => rw [hu] at hc; simp [userText] at hc
      | some up =>
        obtain ⟨u, pw⟩ := up
        obtain ⟨_, h2, h3⟩ := hx.user u pw hu
        rw [hu] at hc
        simp only [userText, List.mem_append, List.mem_singleton] at hc
        rcases hc with (hc | hc) | hc
        · rintro rfl; exact (h2 _ hc).1 (by simp)
        · cases pw with
          | none => simp [opt] at hc
          | some q =>
            simp only [opt, List.mem_cons] at hc
            rcases hc with rfl | hc
            · decide
            · rintro rfl; exact ((h3 q rfl).2 _ hc).1 (by simp)
        · rw [hc]; decide
    · rintro rfl; exact (hx.host.2 _ hc).1 (by simp)
    · cases hp : x.port with
      | none => rw [hp] at hc; simp [opt] at hc
      | some p =>
        rw [hp] at hc
        simp only [opt, List.mem_cons] at hc
        rcases hc with rfl | hc
        · decide
        · rintro rfl; exact absurd ((hx.port p hp).2 _ hc) (by decide)
  have hAne : A ≠ [] := by rw [← hA]; simp [hx.host.1]
  have hauth : (A ++ P).takeWhile (· ≠ '/') = A := by
    apply tw
    · intro c hc; simpa using hslash c hc
    · intro c r h
      obtain ⟨y, hy⟩ := hx.path.1
      rw [← hP, ← hy] at h
      simp at h
      simp [← h.1]
  have hne : x.text ≠ [] := by rw [htext]; simp
  unfold parse
  rw [if_neg hne]
  dsimp only
  rw [hsch, htext, List.drop_left]
  change (if x.scheme ≠ [] then parseRest x.scheme ((A ++ P).takeWhile (· ≠ '/')) ((A ++ P).drop ((A ++ P).takeWhile (· ≠ '/')).length) true
    else parseRest x.scheme [] ('/' :: '/' :: (A ++ P)) false) = some x.url
  rw [if_pos hs1, hauth, List.drop_left]
  unfold parseRest
  rw [if_neg hAne, ← hA, authority_plain x hx]
  dsimp only
  rw [← hP, splitPath_plain x hx]
  congr 1
  have hpn : x.path ≠ [] := by obtain ⟨y, hy⟩ := hx.path.1; rw [← hy]; simp
  have hsn : '\x00' ∉ x.scheme := fun h => absurd (hs2 _ h) (by decide)
  have e1 : detach (x.scheme.map lower) = some (x.scheme.map lower) := detach_free _ (by simpa using hs1) (lower_nul _ hsn)
  have e2 : detach (decode 0 x.host) = some x.host := detach_decode _ _ hx.host.1 hx.host.2
  have e3 : detach (decode 0 (x.query.getD [])) = x.query := by
    cases hq : x.query with
    | none => rfl
    | some q => exact detach_decode _ _ (hx.query q hq).1 (hx.query q hq).2
  have e4 : detach (decode 0 (x.fragment.getD [])) = x.fragment := by
    cases hq : x.fragment with
    | none => rfl
    | some q => exact detach_decode _ _ (hx.fragment q hq).1 (hx.fragment q hq).2
  have e5 : detach (decode 0 ((x.user.map (·.1)).getD [])) = x.user.map (·.1) := by
    cases hu : x.user with
    | none => rfl
    | some up => obtain ⟨u, pw⟩ := up; exact detach_decode _ _ (hx.user u pw hu).1 (hx.user u pw hu).2.1
  have e6 : detach (decode 0 ((x.user.bind (·.2)).getD [])) = x.user.bind (·.2) := by
    cases hu : x.user with
    | none => rfl
    | some up =>
      obtain ⟨u, pw⟩ := up
      cases pw with
      | none => rfl
      | some q => exact detach_decode _ _ ((hx.user u _ hu).2.2 q rfl).1 ((hx.user u _ hu).2.2 q rfl).2
  have e7 : detach x.path = some x.path := detach_free _ hpn hx.path.2.2.2
  unfold finalize Parts.url
  dsimp only
  rw [e1, e2, e3, e4, e5, e6, e7, if_pos hpn]
  cases hp : x.port with
  | none =>
    rw [portOf_eq]
    simp only [Option.getD_none, ne_eq, not_true_eq_false, if_false, hs1, not_false_eq_true, if_true, decide_false, Option.isSome_none]
  | some p =>
    have h0 : '\x00' ∉ p := fun h => absurd ((hx.port p hp).2 _ h) (by decide)
    have hd := detach_free p (hx.port p hp).1 h0
    simp only [Option.getD_some, ne_eq, (hx.port p hp).1, not_false_eq_true, if_true, decide_true, Option.isSome_some, hd]

/-- **C97**: whatever the text, the parser ends, and a url with scheme and `://` has a path -/
theorem C97_path (scheme auth path : Str) (u : Url) (h : parseRest scheme auth path true = some u) : u.path ≠ none := by
  have key : ∀ a, (finalize scheme a true (splitPath path)).path ≠ none := by
    intro a
    unfold finalize
    dsimp only
    split
    · unfold detach; rw [if_neg (by assumption)]; simp
    · simp
  unfold parseRest at h
  split at h
  · cases h; exact key _
  · split at h
    · simp at h
    · cases h; exact key _

/-- **C97**: a text without a colon is a path: there is no scheme and no host -/
theorem C97_relative (s : Str) (u : Url) (hs : ':' ∉ s) (h : parse s = some u) : u.scheme = none ∧ u.host = none := by
  unfold parse at h
  split at h
  · simp at h
  · dsimp only at h
    split at h
    · rename_i r he
      exact absurd (List.mem_of_mem_drop (by rw [he]; simp : ':' ∈ s.drop (s.takeWhile (fun c => decide (SchemeChar c))).length)) hs
    · simp only [parseRest, if_true, Option.some.injEq] at h
      rw [← h]
      exact ⟨rfl, rfl⟩

/-- **C97, a finding**: any location without a colon that does not begin with a slash makes a redirect of a url with a scheme read NULL -/
theorem C97_relative_redirect (u : Url) (loc a : Str) (offsite : Bool) (suffix : Option Str) (hu : u.scheme = some a)
    (hne : loc ≠ []) (hl : ¬ ['/'] <+: loc) (hc : ':' ∉ loc) : applyRedirect parse u loc offsite suffix = .ub := by
  have : ∃ t, parse loc = some t := by
    unfold parse
    rw [if_neg hne]
    dsimp only
    split
    · rename_i r he
      exact absurd (List.mem_of_mem_drop (by rw [he]; simp : ':' ∈ loc.drop (loc.takeWhile (fun c => decide (SchemeChar c))).length)) hc
    · simp only [parseRest, if_true]; exact ⟨_, rfl⟩
  obtain ⟨t, ht⟩ := this
  exact C96_no_scheme parse u t loc a offsite suffix hl ht hu (C97_relative loc t hc ht).1

/-- **C97, a finding**: from a plain url to a plain url of the same scheme and host that ends in the path of the service without its query -/
theorem C97_service_redirect (x y : Parts) (e q : Str) (offsite : Bool) (hy : y.Plain) (hs : x.scheme = y.scheme)
    (hh : x.host = y.host) (hq : y.query = none) (he : e ≠ []) (h2 : '?' ∉ e) (hsuf : e <:+ y.path) :
    applyRedirect parse x.url y.text offsite (some (e ++ '?' :: q)) = .ub := by
  refine C96_no_query parse x.url y.url y.text e q y.path x.host offsite ?_ (C97_parts y hy) ?_ ?_ rfl ?_ rfl hq he h2 hsuf
  · intro h
    obtain ⟨h1, h3⟩ := hy.scheme
    obtain ⟨t, ht⟩ := h
    cases hsc : y.scheme with
    | nil => exact h1 hsc
    | cons c r =>
      have : c = '/' := by
        unfold Parts.text at ht
        rw [hsc] at ht
        simp at ht
        exact ht.1.symm
      exact absurd (h3 c (by rw [hsc]; simp)) (by rw [this]; decide)
  · simp [Parts.url, hs]
  · simp [Parts.url]
  · simp [Parts.url, hh]

theorem run_ipv6 (ssh : Bool) (l rest acc : Str) (a : Auth) (h : ∀ c ∈ l, hexColon c = true) :
    authority ssh .ipv6 (l ++ '[' :: rest) acc a = authority ssh .hostEnd rest [] { a with host := l.reverse ++ acc } := by
  induction l generalizing acc with
  | nil => rw [List.nil_append]; conv => lhs; unfold authority
           rw [if_pos rfl]; rfl
  | cons c l ih =>
    have hc := h c (by simp)
    rw [List.cons_append]
    conv => lhs; unfold authority
    rw [if_neg (by rintro rfl; exact absurd hc (by decide)), if_neg (by simp [hc]), ih _ (fun x hx => h x (by simp [hx]))]
    simp

/-- **C97**: an address in brackets, with or without a port, is the host without the brackets -/
theorem C97_address (scheme addr path : Str) (port : Option Str) (hs : scheme ≠ [] ∧ ∀ c ∈ scheme, SchemeChar c)
    (ha : addr ≠ [] ∧ ∀ c ∈ addr, ('0' ≤ c ∧ c ≤ '9') ∨ ('a' ≤ c ∧ c ≤ 'f') ∨ ('A' ≤ c ∧ c ≤ 'F') ∨ c = ':')
    (hp : ∀ p, port = some p → p ≠ [] ∧ ∀ c ∈ p, '0' ≤ c ∧ c ≤ '9') (hpath : path = [] ∨ ['/'] <+: path) :
    ∃ u, parse (scheme ++ "://[".toList ++ addr ++ "]".toList ++ opt ':' port ++ path) = some u ∧ u.host = some addr ∧
      u.username = none ∧ u.password = none ∧ u.scheme = some (scheme.map lower) ∧
      u.port = (match port with | some p => some p | none => defaultPort (scheme.map lower)) := by
  have hexc : ∀ c ∈ addr.reverse, hexColon c = true := by
    intro c hc
    simpa [hexColon] using ha.2 c (by simpa using hc)
  generalize hA : '[' :: (addr ++ ']' :: opt ':' port) = A
  have htext : scheme ++ "://[".toList ++ addr ++ "]".toList ++ opt ':' port ++ path = scheme ++ ':' :: '/' :: '/' :: (A ++ path) := by
    rw [← hA]; simp
  rw [htext]
  have hsch : (scheme ++ ':' :: '/' :: '/' :: (A ++ path)).takeWhile (fun c => decide (SchemeChar c)) = scheme := by
    apply tw
    · intro c hc; simpa using hs.2 c hc
    · intro c r h; simp at h; rw [← h.1]; decide
  have hslash : ∀ c ∈ A, c ≠ '/' := by
    rw [← hA]
    intro c hc
    simp only [List.mem_cons, List.mem_append] at hc
    rcases hc with rfl | hc | rfl | hc
    · decide
    · rintro rfl; exact absurd (ha.2 _ hc) (by decide)
    · decide
    · cases port with
      | none => simp [opt] at hc
      | some p =>
        simp only [opt, List.mem_cons] at hc
        rcases hc with rfl | hc
        · decide
        · rintro rfl; exact absurd ((hp p rfl).2 _ hc) (by decide)
  have hauth : (A ++ path).takeWhile (· ≠ '/') = A := by
    apply tw
    · intro c hc; simpa using hslash c hc
    · intro c r h
      rcases hpath with h' | ⟨y, hy⟩
      · rw [h'] at h; simp at h
      · rw [← hy] at h; simp at h; simp [← h.1]
  have hread : authority (isSsh scheme) .hostport A.reverse [] ⟨[], [], [], []⟩ = some ⟨[], [], addr, port.getD []⟩ := by
    have fin : ∀ p, authority (isSsh scheme) .ipv6 (addr.reverse ++ '[' :: []) [] ⟨[], [], [], p⟩ = some ⟨[], [], addr, p⟩ := by
      intro p
      rw [run_ipv6 _ _ _ _ _ hexc]
      simp [authority]
    have step : ∀ r p, hostStep ']' [] ⟨[], [], [], p⟩ = some (.ipv6, [], ⟨[], [], [], p⟩) ∧
        authority (isSsh scheme) .host (']' :: r) [] ⟨[], [], [], p⟩ = authority (isSsh scheme) .ipv6 r [] ⟨[], [], [], p⟩ := by
      intro r p
      have h1 : hostStep ']' [] ⟨[], [], [], p⟩ = some (.ipv6, [], ⟨[], [], [], p⟩) := by unfold hostStep; simp
      refine ⟨h1, ?_⟩
      conv => lhs; unfold authority
      rw [h1]
    rw [← hA]
    cases port with
    | none =>
      simp only [opt, List.reverse_cons, List.reverse_append, List.reverse_nil, List.nil_append, List.cons_append, List.append_assoc]
      conv => lhs; unfold authority
      rw [if_neg (by decide), if_pos (by decide), (step [] []).1]
      exact fin []
    | some p =>
      simp only [opt, List.reverse_cons, List.reverse_append, List.nil_append, List.cons_append, List.append_assoc]
      rw [run_port _ p.reverse _ [] _ (fun c hc => (hp p rfl).2 c (by simpa using hc))]
      simp only [List.reverse_reverse, List.append_nil]
      rw [(step _ p).2]
      exact fin p
  have hne : scheme ++ ':' :: '/' :: '/' :: (A ++ path) ≠ [] := by simp
  have hAne : A ≠ [] := by rw [← hA]; simp
  refine ⟨finalize scheme ⟨[], [], addr, port.getD []⟩ true (splitPath path), ?_, ?_, rfl, rfl, ?_, ?_⟩
  · unfold parse
    rw [if_neg hne]
    dsimp only
    rw [hsch, List.drop_left]
    change (if scheme ≠ [] then parseRest scheme ((A ++ path).takeWhile (· ≠ '/')) ((A ++ path).drop ((A ++ path).takeWhile (· ≠ '/')).length) true
      else parseRest scheme [] ('/' :: '/' :: (A ++ path)) false) = _
    rw [if_pos hs.1, hauth, List.drop_left]
    unfold parseRest
    rw [if_neg hAne, hread]
  · refine detach_decode [] addr ha.1 ?_
    intro c hc
    have := ha.2 c hc
    refine ⟨by simp, ?_, ?_⟩
    · rintro rfl; exact absurd this (by decide)
    · rintro rfl; exact absurd this (by decide)
  · exact detach_free _ (by simpa using hs.1) (lower_nul _ (fun h => absurd (hs.2 _ h) (by decide)))
  · unfold finalize
    dsimp only
    rw [portOf_eq]
    cases port with
    | none => simp only [Option.getD_none, ne_eq, not_true_eq_false, if_false, hs.1, not_false_eq_true, if_true]
    | some p =>
      have hd := detach_free p (hp p rfl).1 (fun h => absurd ((hp p rfl).2 _ h) (by decide))
      simp only [Option.getD_some, ne_eq, (hp p rfl).1, not_false_eq_true, if_true, hd]

theorem hexVal_digit (c : Char) (n : Nat) (h : Digit c n) : hexVal c = some n := by
  have le : ∀ a b : Char, a ≤ b ↔ a.toNat ≤ b.toNat := fun a b => Iff.rfl
  unfold hexVal
  simp only [le, show '0'.toNat = 48 from rfl, show '9'.toNat = 57 from rfl, show 'a'.toNat = 97 from rfl, show 'f'.toNat = 102 from rfl,
    show 'A'.toNat = 65 from rfl, show 'F'.toNat = 70 from rfl]
  rcases h with ⟨h1, h2⟩ | ⟨h1, h2, h3 | h3⟩
  · rw [if_pos (by omega)]; congr 1; omega
  · rw [if_neg (by omega), if_pos (by omega)]; congr 1; omega
  · rw [if_neg (by omega), if_neg (by omega), if_pos (by omega)]; congr 1; omega

/-- **C97**: escapes are read as the bytes they stand for -/
theorem C97_escapes (s t : Str) (h : Escaped s t) : decode 0 t = s := by
  induction h with
  | nil => rfl
  | char c s t hc h ih =>
    have : escape (c :: t) = none := by
      unfold escape
      split
      · rename_i e; simp at e; exact absurd e.1 hc
      · rfl
    simp only [decode, this]
    rw [ih]
  | escape c a b x y s t ha hb hc h ih =>
    have : escape ('%' :: a :: b :: t) = some c := by
      show (match hexVal a, hexVal b with
        | some x, some y => some (Char.ofNat (16 * x + y))
        | _, _ => none) = some c
      rw [hexVal_digit a x ha, hexVal_digit b y hb]
      show some (Char.ofNat (16 * x + y)) = some c
      rw [← hc, Char.ofNat_toNat]
    simp only [decode, this]
    rw [ih]

/-- **C97**: so a host, like every part that is decoded, is the text without its escapes, up to the first NUL -/
theorem C97_host_escaped (scheme : Str) (a : Auth) (hier : Bool) (p : Str × Str × Str) (s : Str) (h : Escaped s a.host) (hs : s ≠ []) (h0 : '\x00' ∉ s) :
    (finalize scheme a hier p).host = some s := by
  unfold finalize
  dsimp only
  rw [C97_escapes s _ h, detach_free s hs h0]

/-! ## Examples -/

/-- plain parts with everything -/
def exParts : Parts := ⟨"HTTPS".toList, some ("me".toList, some "pw".toList), "a1.org".toList, some "81".toList, "/x/y".toList, some "q=1".toList, some "f".toList⟩
example : exParts.Plain where
  scheme := by decide
  user := by rintro u p ⟨⟩; refine ⟨by decide, by unfold Free; decide, ?_⟩; rintro q ⟨⟩; exact ⟨by decide, by unfold Free; decide⟩
  host := ⟨by decide, by unfold Free; decide⟩
  port := by rintro p ⟨⟩; decide
  path := by decide
  query := by rintro p ⟨⟩; exact ⟨by decide, by unfold Free; decide⟩
  fragment := by rintro p ⟨⟩; exact ⟨by decide, by unfold Free; decide⟩
example : exParts.text = "HTTPS://me:pw@a1.org:81/x/y?q=1#f".toList := by decide +kernel
/-- what is read of a url -/
def show3 (s : String) : Option (Option Str × Option Str × Option Str × Option Str) :=
  (parse s.toList).map (fun u => (u.scheme, u.host, u.port, u.path))
/-- a url of the four parts -/
def four (a b c d : String) : Option (Option Str × Option Str × Option Str × Option Str) :=
  let f := fun (s : String) => if s = "" then none else some s.toList
  some (f a, f b, f c, f d)
example : show3 "http://a.org" = four "http" "a.org" "80" "/" := by decide +kernel
example : show3 "https://[::1]:8/p" = four "https" "::1" "8" "/p" := by decide +kernel
example : show3 "git://u@12:9" = four "git" "12" "9" "/" := by decide +kernel
example : show3 "ssh://a@b@c/d" = four "ssh" "c" "22" "/d" := by decide +kernel
example : show3 "http://a@b@c/d" = none := by decide +kernel
example : show3 "http://a]b/d" = none ∧ show3 "http://a:b/d" = none ∧ show3 "" = none := by decide +kernel
example : show3 "https:foo" = four "https" "" "443" "foo" := by decide +kernel
example : show3 "foo/bar" = four "" "" "" "foo/bar" := by decide +kernel
example : show3 "http://%61%2Forg/" = four "http" "a/org" "80" "/" := by decide +kernel
example : Escaped "a%".toList "%61%25".toList :=
  .escape _ _ _ 6 1 _ _ (.inl (by decide)) (.inl (by decide)) (by decide) (.escape _ _ _ 2 5 _ _ (.inl (by decide)) (.inl (by decide)) (by decide) .nil)
/-- addresses in brackets that are malformed, escapes in lower case -/
example : ["http://[::1]x/", "http://::1]/", "http://1]/", "http://[x]/", "http://x[::1]/", "http://[1]2/"].all (fun s => (show3 s).isNone) = true := by
  decide +kernel
example : show3 "http://%6f%4A/" = four "http" "oJ" "80" "/" := by decide +kernel
/-- a host that is cut at an escaped NUL -/
example : show3 "http://a.org%00.b.org/" = four "http" "a.org" "80" "/" := by decide +kernel
/-- a location with a scheme and no host -/
example : (parse "http://a.org/x".toList).map (fun u => applyRedirect parse u "https:foo".toList false none) = some .ub := by decide +kernel
/-- a redirect of a fetch -/
example : (parse "https://a.org/old".toList).map (fun u => applyRedirect parse u "https://a.org/new/info/refs".toList false (some exSfx)) = some .ub := by
  decide +kernel
/-- the same with the query, followed -/
example : (parse "https://a.org/old".toList).map (fun u => applyRedirect parse u "https://a.org/new/info/refs?service=git-upload-pack".toList false (some exSfx))
    = (parse "https://a.org/new".toList).map .ok := by decide +kernel

end Verif.NetUrl
