import Verif.NetUrl.Props
/-! # C98: writing urls -/
namespace Verif.NetUrl
open Verif.NetHost

theorem lower_toNat (c : Char) (h : 65 ≤ c.toNat ∧ c.toNat ≤ 90) : (lower c).toNat = c.toNat + 32 := by
  unfold lower
  rw [if_pos h]
  have hv : (c.toNat + 32).isValidChar := Or.inl (by omega)
  rw [Char.ofNat, dif_pos hv]; rfl

theorem lower_lower (c : Char) : lower (lower c) = lower c := by
  by_cases h : 65 ≤ c.toNat ∧ c.toNat ≤ 90
  · have := lower_toNat c h
    have h2 : ∀ d : Char, ¬ (65 ≤ d.toNat ∧ d.toNat ≤ 90) → lower d = d := fun d hd => by unfold lower; rw [if_neg hd]
    exact h2 _ (by rw [this]; omega)
  · have e : lower c = c := by unfold lower; rw [if_neg h]
    rw [e, e]

theorem map_lower_lower (s : Str) : (s.map lower).map lower = s.map lower := by
  simp [lower_lower]

theorem lower_scheme (c : Char) (h : SchemeChar c) : SchemeChar (lower c) := by
  by_cases hc : 65 ≤ c.toNat ∧ c.toNat ≤ 90
  · have := lower_toNat c hc
    left
    show 97 ≤ (lower c).toNat ∧ (lower c).toNat ≤ 122
    omega
  · have e : lower c = c := by unfold lower; rw [if_neg hc]
    rw [e]; exact h

/-- what is written of a url: the scheme in lower case, no port that is that of the scheme, no fragment -/
def Parts.written (x : Parts) : Parts :=
  { x with scheme := x.scheme.map lower, port := if x.port = defaultPort (x.scheme.map lower) then none else x.port, fragment := none }

theorem written_plain (x : Parts) (hx : x.Plain) : x.written.Plain where
  scheme := by
    refine ⟨by simpa [Parts.written] using hx.scheme.1, ?_⟩
    intro c hc
    simp only [Parts.written, List.mem_map] at hc
    obtain ⟨d, hd, rfl⟩ := hc
    exact lower_scheme d (hx.scheme.2 d hd)
  user := hx.user
  host := hx.host
  port := by
    intro p hp
    simp only [Parts.written] at hp
    split at hp
    · simp at hp
    · exact hx.port p hp
  path := hx.path
  query := hx.query
  fragment := by intro f hf; simp [Parts.written] at hf

/-- **C98**: the text written for a url of plain parts is that of these parts, with the scheme in lower case, without its port and the fragment -/
theorem C98_text (x : Parts) : fmt x.url = some x.written.text := by
  have hu : fmtUser x.url = userText x.user := by
    unfold fmtUser Parts.url
    cases x.user with
    | none => rfl
    | some up => obtain ⟨u, p⟩ := up; cases p <;> simp [userText, opt]
  have hq : fmtQuery x.url = opt '?' x.query := by
    unfold fmtQuery Parts.url
    cases x.query <;> rfl
  have hp : fmtPort x.url (x.scheme.map lower) = opt ':' x.written.port := by
    unfold fmtPort isDefaultPort Parts.url Parts.written
    rw [portOf_eq]
    dsimp only
    cases hp : x.port with
    | none =>
      dsimp only
      cases hd : defaultPort (x.scheme.map lower) with
      | none => simp [opt]
      | some d => simp [opt]
    | some p =>
      dsimp only
      cases hd : defaultPort (x.scheme.map lower) with
      | none => simp [opt]
      | some d => by_cases e : p = d <;> simp [e, opt]
  have hm : fmt x.url = some (x.scheme.map lower ++ "://".toList ++ fmtUser x.url ++ x.host ++ fmtPort x.url (x.scheme.map lower) ++ x.path ++ fmtQuery x.url) := rfl
  rw [hm, hu, hq, hp]
  congr 1
  unfold Parts.text
  simp [Parts.written, opt]

/-- **C98**: what is written for a url of plain parts is read as that url, without the fragment -/
theorem C98_round_trip (x : Parts) (hx : x.Plain) : ∃ s, fmt x.url = some s ∧
    parse s = some { x.url with fragment := none, portSpecified := decide (x.port ≠ none ∧ x.port ≠ defaultPort (x.scheme.map lower)) } := by
  refine ⟨_, C98_text x, ?_⟩
  rw [C97_parts _ (written_plain x hx)]
  congr 1
  unfold Parts.url Parts.written
  simp only [map_lower_lower]
  congr 1
  · by_cases h : x.port = defaultPort (x.scheme.map lower)
    · rw [if_pos h]
      cases hp : x.port with
      | none => rfl
      | some p => rw [hp] at h; dsimp only; rw [← h]
    · rw [if_neg h]
  · by_cases h : x.port = defaultPort (x.scheme.map lower)
    · simp [h]
    · rw [if_neg h]
      cases hp : x.port with
      | none => simp
      | some p => rw [hp] at h; simp [h]

/-- **C98**: a url that was written once is written the same again -/
theorem C98_stable (x : Parts) (hx : x.Plain) (s : Str) (u : Url) (hs : fmt x.url = some s) (hu : parse s = some u) : fmt u = some s := by
  rw [C98_text] at hs
  cases hs
  rw [C97_parts _ (written_plain x hx)] at hu
  cases hu
  rw [C98_text]
  congr 2
  unfold Parts.written
  simp only [map_lower_lower]
  congr 1
  by_cases h : x.port = defaultPort (x.scheme.map lower)
  · simp [h]
  · simp [h]

/-- **C98, a finding**: the host of an address in brackets is written without them, and cannot be read again -/
theorem C98_address : (parse "http://[::1]:8080/x".toList).bind fmt = some "http://::1:8080/x".toList ∧ parse "http://::1:8080/x".toList = none := by
  decide +kernel
/-- **C98, a finding**: escapes are not written: a user with an escaped at sign cannot be read again, and a slash moves the end of the host -/
theorem C98_escapes : (parse "http://me%40b.org@a.org/x".toList).bind fmt = some "http://me@b.org@a.org/x".toList ∧
    parse "http://me@b.org@a.org/x".toList = none ∧
    ((parse "http://b.org%2f@a.org/x".toList).bind fmt).map (fun s => (parse s).bind (·.host)) = some (some "b.org".toList) := by
  decide +kernel

/-! ## Examples -/
example : (parse exParts.text).bind fmt = some "https://me:pw@a1.org:81/x/y?q=1".toList := by decide +kernel
example : (parse "HTTP://a.org:80".toList).bind fmt = some "http://a.org/".toList := by decide +kernel
example : (parse "foo".toList).bind fmt = none := by decide +kernel
example : fmt ⟨some "http".toList, none, none, some "a.org".toList, none, none, some "q".toList, none, false⟩ = some "http://a.org/?q".toList := by
  decide +kernel

end Verif.NetUrl
