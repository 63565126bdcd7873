import Verif.Strtol.Lemmas
/-! # C46: string to integer conversion -/
namespace Verif.Strtol
open Spec

/-- after the sign: the rest of `strntol64` -/
def afterSign (neg : Bool) (base : Nat) (p : Bytes) : Res (Int × Bytes) :=
  if p = [] then .err (-1)
  else
    let base := detectBase base p
    if 36 < base then .err (-1)
    else
      let (a, rest) := digitLoop base neg ⟨0, false, 0⟩ (skipPrefix base p)
      if a.ndig = 0 then .err (-1)
      else if a.ovfl then .err (-1)
      else .ok (a.n, rest)

theorem strntol64_eq (s : Bytes) (base : Nat) : strntol64 s base =
    match s.dropWhile isSpace with
    | [] => .err (-1)
    | c :: cs => afterSign (c = 0x2d) base (if c = 0x2d ∨ c = 0x2b then cs else c :: cs) := rfl

theorem afterSign_iff (neg : Bool) (base : Nat) (p : Bytes) (v : Int) (rest : Bytes) :
    afterSign neg base p = .ok (v, rest) ↔
      ∃ pre ds b n, p = pre ++ (ds ++ rest) ∧ Prefix base pre b (ds ++ rest) ∧ b ≤ 36 ∧ ds ≠ [] ∧ Spells b ds n ∧
        (∀ c, rest.head? = some c → ∀ d, Digit c d → b ≤ d) ∧ v = sgn neg n ∧ fits64 v = true := by
  constructor
  · intro h
    unfold afterSign at h
    split at h
    · cases h
    · rename_i hp
      simp only at h
      split at h
      · cases h
      · rename_i hb
        obtain ⟨n, a, h1, h2, h3, h4⟩ := digitLoop_char (detectBase base p) neg (skipPrefix (detectBase base p) p)
        rw [h2] at h
        simp only at h
        split at h
        · cases h
        · rename_i hnd
          split at h
          · cases h
          · rename_i hov
            cases h
            generalize hb' : detectBase base p = b at *
            generalize htl : skipPrefix b p = tl at *
            have hsuf : ∃ pre, p = pre ++ tl := by
              rw [← htl]
              unfold skipPrefix
              split
              · split
                · rename_i x r _; exact ⟨[0x30, x], rfl⟩
                · exact ⟨[], rfl⟩
              · exact ⟨[], rfl⟩
            obtain ⟨pre, hpre⟩ := hsuf
            have hsplit : tl.takeWhile (isDig b) ++ tl.dropWhile (isDig b) = tl := List.takeWhile_append_dropWhile
            refine ⟨pre, tl.takeWhile (isDig b), b, n, by rw [hsplit, hpre], ?_, by omega, ?_, h1, ?_, ?_⟩
            · rw [hsplit, prefix_iff, ← hpre]; exact ⟨hb', htl⟩
            · intro h0; rw [h0] at h4; exact hnd (by simpa using h4)
            · intro c hc d hd
              have := dropWhile_head (isDig b) tl c hc
              rcases Nat.lt_or_ge d b with hlt | hge
              · have h6 := (isDig_iff b c).2 ⟨d, hd, hlt⟩
                rw [h6] at this; cases this
              · exact hge
            · rcases h3 with ⟨_, h7, h8⟩ | ⟨h7, _⟩
              · exact ⟨h7, by rw [h7]; exact h8⟩
              · exact absurd h7 hov
  · rintro ⟨pre, ds, b, n, rfl, hpre, hb, hne, hsp, hrest, rfl, hfit⟩
    rw [prefix_iff] at hpre
    obtain ⟨h1, h2⟩ := hpre
    unfold afterSign
    rw [if_neg (by simp [hne])]
    simp only
    rw [h1, if_neg (by omega), h2]
    obtain ⟨a, e1, e2, e3⟩ := digitLoop_spells b neg ds n hsp rest
    have hstop : digitLoop b neg a rest = (a, rest) := by
      apply digitLoop_stop
      intro c hc
      cases hd : isDig b c with
      | false => rfl
      | true =>
        obtain ⟨d, hd1, hd2⟩ := (isDig_iff b c).1 hd
        have := hrest c hc d hd1
        omega
    rw [e1, hstop]
    simp only
    have : a.ndig ≠ 0 := by rw [e3]; simp [hne]
    rw [if_neg this]
    rcases e2 with ⟨g1, g2, _⟩ | ⟨_, g2⟩
    · rw [g1, g2]; rfl
    · rw [hfit] at g2; cases g2

/-- **C46.** `git__strntol64` succeeds with value `v`, leaving `rest`, exactly when the text is optional white space followed by the
longest number in the given base, that number is `v`, and `v` fits in 64 bits. It reads only the given bytes. -/
theorem C46_exact64 (s : Bytes) (base : Nat) (v : Int) (rest : Bytes) :
    strntol64 s base = .ok (v, rest) ↔ Number s base v rest ∧ -(2 ^ 63) ≤ v ∧ v < 2 ^ 63 := by
  have hfit : fits64 v = true ↔ -(2 ^ 63) ≤ v ∧ v < 2 ^ 63 := by simp [fits64]
  rw [← hfit, strntol64_eq]
  constructor
  · intro h
    have hsplit : s.takeWhile isSpace ++ s.dropWhile isSpace = s := List.takeWhile_append_dropWhile
    have hws : ∀ c ∈ s.takeWhile isSpace, Space c := fun c hc => (space_iff c).1 (takeWhile_all _ _ c hc)
    have hhd : ∀ c, (s.dropWhile isSpace).head? = some c → ¬ Space c := by
      intro c hc hsp
      have := dropWhile_head _ _ c hc
      rw [(space_iff c).2 hsp] at this; cases this
    generalize hp : s.dropWhile isSpace = p at *
    cases p with
    | nil => cases h
    | cons c cs =>
      simp only at h
      rw [afterSign_iff] at h
      obtain ⟨pre, ds, b, n, h1, h2, h3, h4, h5, h6, h7, h8⟩ := h
      refine ⟨?_, h8⟩
      by_cases hc : c = 0x2d ∨ c = 0x2b
      · rw [if_pos hc] at h1
        subst h1
        refine ⟨_, [c], decide (c = 0x2d), pre, ds, b, n, hsplit.symm, hws, hhd, ?_, h2, h3, h4, h5, h6, ?_⟩
        · rcases hc with rfl | rfl
          · exact .inl ⟨by simp, rfl⟩
          · exact .inr ⟨by decide, .inl rfl⟩
        · rw [h7]; rfl
      · rw [if_neg hc] at h1
        rw [h1] at hsplit
        refine ⟨_, [], decide (c = 0x2d), pre, ds, b, n, hsplit.symm, hws, by rw [h1] at hhd; exact hhd, ?_, h2, h3, h4, h5, h6, ?_⟩
        · exact .inr ⟨by simpa using fun h => hc (.inl h), .inr rfl⟩
        · rw [h7]; rfl
  · rintro ⟨⟨ws, sg, neg, pre, ds, b, n, rfl, hws, hhd, hsg, hpre, hb, hne, hsp, hrest, hv⟩, hf⟩
    rw [dropWhile_append_stop isSpace ws _ (fun c hc => (space_iff c).2 (hws c hc))]
    · have hfirst : ∀ c, (pre ++ (ds ++ rest)).head? = some c → c ≠ 0x2d ∧ c ≠ 0x2b := by
        intro c hc
        cases pre with
        | nil =>
          cases ds with
          | nil => exact absurd rfl hne
          | cons d ds =>
            simp at hc
            subst hc
            have hdig := Spells.isDig hsp d (by simp)
            constructor <;> rintro rfl <;> simp [isDig, digitVal] at hdig
        | cons x xs =>
          simp at hc
          subst hc
          unfold Prefix at hpre
          simp only at hpre
          rcases hpre with ⟨⟨_, _, _, _, h⟩, _⟩ | ⟨_, h, _⟩
          · simp at h; rw [h.1]; decide
          · cases h
      have hA : afterSign neg base (pre ++ (ds ++ rest)) = .ok (v, rest) :=
        (afterSign_iff _ _ _ _ _).2 ⟨pre, ds, b, n, rfl, hpre, hb, hne, hsp, hrest, hv, hf⟩
      rcases hsg with ⟨rfl, rfl⟩ | ⟨rfl, rfl | rfl⟩
      · exact hA
      · exact hA
      · rw [List.nil_append]
        generalize hq : pre ++ (ds ++ rest) = q at *
        cases q with
        | nil => simp at hq; exact absurd hq.2.1 hne
        | cons c cs =>
          obtain ⟨h1, h2⟩ := hfirst c rfl
          simp only
          rw [if_neg (by simp [h1, h2])]
          have : decide (c = 0x2d) = false := by simp [h1]
          rw [this]
          exact hA
    · intro c hc
      have := hhd c hc
      cases h : isSpace c with
      | false => rfl
      | true => exact absurd ((space_iff c).1 h) this

/-- **C46**, 32 bits. -/
theorem C46_exact32 (s : Bytes) (base : Nat) (v : Int) (rest : Bytes) :
    strntol32 s base = .ok (v, rest) ↔ Number s base v rest ∧ -(2 ^ 31) ≤ v ∧ v < 2 ^ 31 := by
  unfold strntol32
  constructor
  · intro h
    cases e : strntol64 s base with
    | err e' => rw [e] at h; cases h
    | ub => rw [e] at h; cases h
    | ok x =>
      obtain ⟨v', r'⟩ := x
      rw [e] at h
      simp only at h
      split at h
      · cases h
      · rename_i h1
        cases h
        exact ⟨((C46_exact64 s base v rest).1 e).1, by omega, by omega⟩
  · rintro ⟨h1, h2, h3⟩
    rw [(C46_exact64 s base v rest).2 ⟨h1, by omega, by omega⟩]
    simp only
    rw [if_neg]
    omega

/-- **C46**: in every other case the conversion reports failure (-1). -/
theorem C46_fails (s : Bytes) (base : Nat) (h : ¬ ∃ v rest, Number s base v rest ∧ -(2 ^ 63) ≤ v ∧ v < 2 ^ 63) :
    strntol64 s base = .err (-1) := by
  cases e : strntol64 s base with
  | ok x => exact absurd ⟨x.1, x.2, (C46_exact64 s base x.1 x.2).1 e⟩ h
  | ub =>
    exfalso
    rw [strntol64_eq] at e
    cases hp : s.dropWhile isSpace with
    | nil => rw [hp] at e; cases e
    | cons c cs =>
      rw [hp] at e
      simp only [afterSign] at e
      repeat' split at e
      all_goals cases e
  | err e' =>
    rw [strntol64_eq] at e
    cases hp : s.dropWhile isSpace with
    | nil => rw [hp] at e; cases e; rfl
    | cons c cs =>
      rw [hp] at e
      simp only [afterSign] at e
      repeat' split at e
      all_goals (cases e; try rfl)

/-- the value and the remainder are determined by the text -/
theorem C46_deterministic (s : Bytes) (base : Nat) (v v' : Int) (r r' : Bytes) (h : Number s base v r) (h' : Number s base v' r')
    (hf : -(2 ^ 63) ≤ v ∧ v < 2 ^ 63) (hf' : -(2 ^ 63) ≤ v' ∧ v' < 2 ^ 63) : v = v' ∧ r = r' := by
  have a := (C46_exact64 s base v r).2 ⟨h, hf⟩
  have b := (C46_exact64 s base v' r').2 ⟨h', hf'⟩
  rw [a] at b
  cases b; exact ⟨rfl, rfl⟩

example : strntol64 b!"  -0x1Fg" 0 = .ok (-31, b!"g") := by decide +kernel
example : strntol64 b!"9223372036854775807" 10 = .ok (9223372036854775807, []) := by decide +kernel
example : strntol64 b!"9223372036854775808" 10 = .err (-1) := by decide +kernel
example : strntol64 b!"-9223372036854775808 " 10 = .ok (-9223372036854775808, b!" ") := by decide +kernel
example : strntol32 b!"2147483648" 10 = .err (-1) := by decide +kernel
/-- `0x` with nothing digit-like behind it is refused rather than read as `0` -/
example : strntol64 b!"0xg" 0 = .err (-1) := by decide +kernel

end Verif.Strtol
