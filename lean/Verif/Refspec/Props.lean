import Verif.Refspec.Model
/-! # C16: refspecs -/
namespace Verif.Refspec
open RefName.Spec (Valid Occurs Plain uncaret)

/-- a string without the characters that mean something in a pattern -/
def Literal (s : Bytes) : Prop := ∀ c ∈ s, c ∉ b!"*?[\\"

/-! ## Names -/

theorem checkName_cases (n : Bytes) (g : Bool) :
    (checkName n g = .ok () ∧ Valid true g true n ∧ ¬ Occurs b!"//" n) ∨
    (checkName n g = .err RefName.EINVALIDSPEC ∧ ¬ (Valid true g true n ∧ ¬ Occurs b!"//" n)) := by
  have h := RefName.C15_name_is_valid n (nameFlags g) rfl
  by_cases hv : Valid true g true n ∧ ¬ Occurs b!"//" n
  · have h1 : RefName.nameIsValid n (nameFlags g) = .ok true := h.1.mpr hv
    left
    exact ⟨by rw [checkName, h1], hv⟩
  · have h1 : RefName.nameIsValid n (nameFlags g) = .ok false := h.2.mpr hv
    right
    exact ⟨by rw [checkName, h1], hv⟩

theorem checkName_ok {n : Bytes} {g : Bool} (h : checkName n g = .ok ()) : Valid true g true n := by
  rcases checkName_cases n g with h1 | h1
  · exact h1.2.1
  · rw [h] at h1; cases h1.1

theorem valid_mem {g : Bool} {n : Bytes} (h : Valid true g true n) : ∀ c ∈ n, c ∉ b!"?[\\" := by
  have key : ∀ c ∈ uncaret n, c ∉ b!"?[\\" := by
    intro c hc
    have := (h.plain c hc).2
    simp only [List.mem_cons, List.not_mem_nil, or_false, not_or] at this ⊢
    exact ⟨this.2.2.2.2.1, this.2.2.2.2.2, this.2.2.2.1⟩
  intro c hc
  cases n with
  | nil => simp at hc
  | cons x n =>
    rw [uncaret] at key
    split at key
    · rename_i hx
      rcases List.mem_cons.mp hc with rfl | hc
      · subst hx; decide
      · exact key c hc
    · exact key c hc

theorem valid_literal {n : Bytes} (h : Valid true false true n) : Literal n := by
  intro c hc
  have h1 := valid_mem h c hc
  have h2 := h.stars
  simp only [Bool.false_eq_true, if_false, Nat.le_zero, List.count_eq_zero] at h2
  simp only [List.mem_cons, List.not_mem_nil, or_false, not_or] at h1 ⊢
  exact ⟨fun e => h2 (e ▸ hc), h1⟩

theorem valid_pattern {n : Bytes} (h : Valid true true true n) (hs : c!"*" ∈ n) : ∃ p q, n = p ++ c!"*" :: q ∧ Literal p ∧ Literal q := by
  obtain ⟨p, q, e⟩ := List.append_of_mem hs
  have h2 := h.stars
  simp only [if_true] at h2
  rw [e, List.count_append, List.count_cons_self] at h2
  have hp : c!"*" ∉ p := List.count_eq_zero.mp (by omega)
  have hq : c!"*" ∉ q := List.count_eq_zero.mp (by omega)
  refine ⟨p, q, e, ?_, ?_⟩
  · intro c hc
    have := valid_mem h c (by rw [e]; simp [hc])
    simp only [List.mem_cons, List.not_mem_nil, or_false, not_or] at this ⊢
    exact ⟨fun e => hp (e ▸ hc), this⟩
  · intro c hc
    have := valid_mem h c (by rw [e]; simp [hc])
    simp only [List.mem_cons, List.not_mem_nil, or_false, not_or] at this ⊢
    exact ⟨fun e => hq (e ▸ hc), this⟩

/-! ## Splitting -/

theorem last_occ {c : UInt8} {l : Bytes} (h : c ∈ l) : ∃ a b, l = a ++ c :: b ∧ c ∉ b := by
  induction l with
  | nil => simp at h
  | cons x l ih =>
    by_cases hl : c ∈ l
    · obtain ⟨a, b, e, hb⟩ := ih hl
      exact ⟨x :: a, b, by rw [e]; rfl, hb⟩
    · have : c = x := by simpa [hl] using h
      exact ⟨[], l, by rw [this]; rfl, hl⟩

theorem takeWhile_ne {c : UInt8} (b r : Bytes) (hb : c ∉ b) : (b ++ c :: r).takeWhile (· != c) = b ∧ (b ++ c :: r).dropWhile (· != c) = c :: r := by
  induction b with
  | nil => simp
  | cons x b ih =>
    have h1 : (x != c) = true := by simp only [List.mem_cons, not_or] at hb; simpa using Ne.symm hb.1
    have := ih (fun h => hb (by simp [h]))
    simp [h1, this.1, this.2]

theorem splitColon_append {s r : Bytes} (h : c!":" ∉ r) : splitColon (s ++ c!":" :: r) = (s, some r) := by
  unfold splitColon
  rw [if_pos (by simp)]
  have e : (s ++ c!":" :: r).reverse = r.reverse ++ c!":" :: s.reverse := by simp
  have := takeWhile_ne (c := c!":") r.reverse s.reverse (by simpa using h)
  rw [e, this.1, this.2]
  simp

theorem splitColon_cases (l : Bytes) : (c!":" ∉ l ∧ splitColon l = (l, none)) ∨ ∃ s r, l = s ++ c!":" :: r ∧ c!":" ∉ r ∧ splitColon l = (s, some r) := by
  by_cases h : c!":" ∈ l
  · obtain ⟨s, r, rfl, hr⟩ := last_occ h
    exact .inr ⟨s, r, rfl, hr, splitColon_append hr⟩
  · exact .inl ⟨h, by rw [splitColon, if_neg h]⟩

theorem splitStar_append {p q : Bytes} (h : Literal p) : splitStar (p ++ c!"*" :: q) = some (p, q) := by
  have hp : c!"*" ∉ p := fun e => h _ e (by decide)
  unfold splitStar
  rw [if_pos (by simp), (takeWhile_ne p q hp).1, (takeWhile_ne p q hp).2]
  rfl

/-! ## What a parsed refspec looks like -/

/-- What is known about a refspec that was parsed. -/
inductive Parsed (isFetch : Bool) (s : Spec) : Prop
  /-- the refspec ":" -/
  | matching (h1 : isFetch = false) (h2 : s.matching = true) (h3 : s.pattern = false) (h4 : s.src = []) (h5 : s.dst = some [])
  /-- without a pattern -/
  | plain (h1 : s.pattern = false) (h2 : s.matching = false) (h3 : c!"*" ∉ s.src) (h4 : isFetch = true → s.src = [] ∨ Valid true false true s.src)
    (h5 : ∀ d, s.dst = some d → Valid true false true d) (h6 : isFetch = false → s.dst ≠ none)
  /-- with a pattern -/
  | pattern (h1 : s.pattern = true) (h2 : s.matching = false) (h3 : Valid true true true s.src) (h4 : c!"*" ∈ s.src)
    (h5 : ∀ d, s.dst = some d → Valid true true true d ∧ c!"*" ∈ d) (h6 : s.dst = none → isFetch = true ∧ s.src.head? = some c!"^")

theorem dstOf_some {rhs : Option Bytes} {isFetch : Bool} {d : Bytes} (h : dstOf rhs isFetch = some d) : rhs = some d ∧ (isFetch = true → d ≠ []) := by
  cases rhs with
  | none => cases h
  | some r =>
    unfold dstOf at h
    simp only [Bool.or_eq_true, decide_eq_true_eq, Bool.not_eq_true'] at h
    split at h
    · cases h
      rename_i hh
      refine ⟨rfl, fun hf => ?_⟩
      rcases hh with hh | hh
      · exact hh
      · rw [hf] at hh; cases hh
    · cases h

theorem checkFetch_ok {src : Bytes} {dst : Option Bytes} {g : Bool} (h : checkFetch src dst g = .ok ()) :
    (src = [] ∨ Valid true g true src) ∧ ∀ d, dst = some d → d ≠ [] → Valid true g true d := by
  unfold checkFetch at h
  by_cases hs : src = []
  · rw [if_pos hs] at h
    refine ⟨.inl hs, ?_⟩
    rintro d rfl hd
    simp only [Res.bind_ok, hd, if_false] at h
    exact checkName_ok h
  · rw [if_neg hs] at h
    rcases checkName_cases src g with ⟨h1, hv⟩ | ⟨h1, _⟩
    · refine ⟨.inr hv.1, ?_⟩
      rintro d rfl hd
      simp only [h1, Res.bind_ok, hd, if_false] at h
      exact checkName_ok h
    · rw [h1] at h; cases h

theorem bind_ok' {α β : Type} {x : Res α} {f : α → Res β} {b : β} (h : (x >>= f) = .ok b) : ∃ a, x = .ok a ∧ f a = .ok b := by
  cases x with
  | ok a => exact ⟨a, rfl, h⟩
  | err e => cases h
  | ub => cases h

theorem checkPush_ok {src : Bytes} {dst : Option Bytes} {g : Bool} (h : checkPush src dst g = .ok ()) :
    (src ≠ [] → g = true → Valid true g true src) ∧ Valid true g true (dst.getD src) := by
  unfold checkPush at h
  have h2 : (match dst with
    | none => checkName src g
    | some d => if d = [] then .err RefName.EINVALIDSPEC else checkName d g) = .ok () ∧ (src ≠ [] → g = true → Valid true g true src) := by
    by_cases hs : src = []
    · rw [if_pos hs] at h
      exact ⟨h, fun hh => absurd hs hh⟩
    · rw [if_neg hs] at h
      cases g with
      | false => exact ⟨h, fun _ hg => absurd hg (by simp)⟩
      | true =>
        rcases checkName_cases src true with ⟨h1, hv⟩ | ⟨h1, _⟩
        · obtain ⟨u, _, h⟩ := bind_ok' h
          exact ⟨h, fun _ _ => hv.1⟩
        · rw [if_pos rfl, h1] at h; cases h
  refine ⟨h2.2, ?_⟩
  cases dst with
  | none => exact checkName_ok h2.1
  | some d =>
    have := h2.1
    simp only at this
    split at this
    · cases this
    · exact checkName_ok this

theorem parseSides_parsed {input : Bytes} {force isNeg isFetch : Bool} {src : Bytes} {rhs : Option Bytes} {s : Spec}
    (hneg : rhs = none → isNeg = true → src.head? = some c!"^")
    (h : parseSides input force isNeg src rhs isFetch = .ok s) :
    Parsed isFetch s ∧ s.push = !isFetch ∧ s.string = input ∧ s.force = force := by
  unfold parseSides at h
  cases hg : globRule src rhs isNeg isFetch with
  | none => rw [hg] at h; cases h
  | some g =>
    rw [hg] at h
    simp only at h
    unfold globRule at hg
    dsimp only at hg
    -- what the glob rule says
    have hrule : (g = true → c!"*" ∈ src ∧ (∀ r, rhs = some r → c!"*" ∈ r) ∧ (rhs = none → isFetch = true → isNeg = true)) ∧
        (g = false → c!"*" ∉ src) := by
      by_cases hs : c!"*" ∈ src
      · rw [if_pos (by simpa using hs)] at hg
        cases rhs with
        | none =>
          simp only [Option.isSome_none, Bool.false_and, Bool.not_false, Bool.true_and, Bool.false_or] at hg
          split at hg
          · cases hg
          · rename_i hb
            cases hg
            refine ⟨fun _ => ⟨hs, (fun r e => (by cases e)), fun _ hf => ?_⟩, (fun e => (by cases e))⟩
            subst hf
            simpa using hb
        | some r =>
          simp only at hg
          split at hg
          · cases hg
          · rename_i hb
            cases hg
            refine ⟨fun _ => ⟨hs, ?_, (fun e => (by cases e))⟩, (fun e => (by cases e))⟩
            rintro r' ⟨⟩
            simp at hb
            exact hb.1
      · rw [if_neg (by simpa using hs)] at hg
        refine ⟨?_, fun _ => hs⟩
        rintro rfl
        cases rhs with
        | none => simp at hg
        | some r => simp at hg
    cases isFetch with
    | true =>
      rw [if_pos rfl] at h
      cases hc : checkFetch src (dstOf rhs true) g with
      | err e => rw [hc] at h; cases h
      | ub => rw [hc] at h; cases h
      | ok u =>
        rw [hc] at h
        cases h
        obtain ⟨h1, h2⟩ := checkFetch_ok hc
        refine ⟨?_, rfl, rfl, rfl⟩
        cases g with
        | false =>
          refine .plain rfl rfl (hrule.2 rfl) (fun _ => h1) ?_ (fun e => absurd e (by simp))
          intro d hd
          exact h2 d hd ((dstOf_some hd).2 rfl)
        | true =>
          obtain ⟨h3, h4, h5⟩ := hrule.1 rfl
          have hne : src ≠ [] := by rintro rfl; simp at h3
          refine .pattern rfl rfl (h1.resolve_left hne) h3 ?_ ?_
          · intro d hd
            exact ⟨h2 d hd ((dstOf_some hd).2 rfl), h4 d (dstOf_some hd).1⟩
          · intro hd
            refine ⟨rfl, ?_⟩
            have hr : rhs = none := by
              cases rhs with
              | none => rfl
              | some r =>
                have := h4 r rfl
                have hne : r ≠ [] := by rintro rfl; simp at this
                simp [dstOf, hne] at hd
            exact hneg hr (h5 hr rfl)
    | false =>
      rw [if_neg (by simp)] at h
      cases hc : checkPush src (dstOf rhs false) g with
      | err e => rw [hc] at h; cases h
      | ub => rw [hc] at h; cases h
      | ok u =>
        rw [hc] at h
        cases h
        obtain ⟨h1, h2⟩ := checkPush_ok hc
        refine ⟨?_, rfl, rfl, rfl⟩
        cases g with
        | false =>
          refine .plain rfl rfl (hrule.2 rfl) (fun e => absurd e (by simp)) ?_ (fun _ => by simp)
          intro d hd
          cases hd
          exact h2
        | true =>
          obtain ⟨h3, h4, h5⟩ := hrule.1 rfl
          have hne : src ≠ [] := by rintro rfl; simp at h3
          refine .pattern rfl rfl (h1 hne rfl) h3 ?_ (fun e => (by cases e))
          intro d hd
          cases hd
          refine ⟨h2, ?_⟩
          cases hd : dstOf rhs false with
          | none => exact h3
          | some d => exact h4 d (dstOf_some hd).1

theorem parse_parsed {input : Bytes} {isFetch : Bool} {s : Spec} (h : parse input isFetch = .ok s) :
    Parsed isFetch s ∧ s.push = !isFetch ∧ s.string = input ∧ s.force = decide (input.head? = some c!"+") := by
  have key : ∀ force lhs, parseLhs input force lhs isFetch = .ok s → Parsed isFetch s ∧ s.push = !isFetch ∧ s.string = input ∧ s.force = force := by
    intro force lhs h
    unfold parseLhs at h
    split at h
    · rename_i hm
      simp only [Bool.and_eq_true, Bool.not_eq_true', decide_eq_true_eq] at hm
      cases h
      exact ⟨.matching hm.1 rfl rfl rfl rfl, by simp [hm.1], rfl, rfl⟩
    · refine parseSides_parsed ?_ h
      intro hr hn
      rcases splitColon_cases lhs with ⟨_, h1⟩ | ⟨a, b, _, _, h1⟩
      · rw [h1]; simpa using hn
      · rw [h1] at hr; cases hr
  unfold parse at h
  split at h
  · rename_i hp; simpa [hp] using key _ _ h
  · rename_i hp; simpa [hp] using key _ _ h

/-! ## Matching and transforming -/

theorem glob_literal {p : Bytes} (hp : Literal p) (t : Bytes) : glob p t = true ↔ t = p := by
  unfold glob
  rw [decide_eq_true_eq]
  exact Wildmatch.C32_literal hp ⟨false, false⟩ rfl t

theorem glob_pattern {p q : Bytes} (hp : Literal p) (hq : Literal q) (t : Bytes) : glob (p ++ c!"*" :: q) t = true ↔ ∃ x, t = p ++ x ++ q := by
  unfold glob
  rw [decide_eq_true_eq]
  exact Wildmatch.C32_one_star hp hq t

theorem transformPattern_eq {p q p' q' x : Bytes} (hp : Literal p) (hp' : Literal p') :
    transformPattern (p ++ c!"*" :: q) (p' ++ c!"*" :: q') (p ++ x ++ q) = .ok (p' ++ x ++ q') := by
  unfold transformPattern
  rw [splitStar_append hp, splitStar_append hp']
  simp only [List.append_assoc, List.length_append, List.drop_left]
  rw [if_neg (by omega), if_neg (by omega)]
  congr 2
  rw [show x.length + q.length - q.length = x.length by omega, List.take_left]

/-- **C16.** For a refspec that was parsed and has a destination: a name that matches the source side is turned into one that matches the
destination side, and the reverse transformation gives the original name back.  For a push refspec without a pattern, whose source is not
checked, it has to be free of the characters ? [ \. -/
theorem C16_transform {input : Bytes} {isFetch : Bool} {s : Spec} (h : parse input isFetch = .ok s) (hdst : s.dst ≠ none)
    (hlit : isFetch = true ∨ s.pattern = true ∨ Literal s.src) (name : Bytes) (hm : srcMatches s name = true) :
    ∃ out, transform s name = .ok out ∧ dstMatches s out = true ∧ rtransform s out = .ok name := by
  obtain ⟨d, hd⟩ := Option.ne_none_iff_exists'.mp hdst
  have lit : Literal s.src → Literal d → s.pattern = false → ∃ out, transform s name = .ok out ∧ dstMatches s out = true ∧ rtransform s out = .ok name := by
    intro h1 h2 h3
    have hdm : dstMatches s d = true := by unfold dstMatches; rw [hd]; exact (glob_literal h2 d).mpr rfl
    refine ⟨d, ?_, hdm, ?_⟩
    · simp [transform, hm, h3, hd]
    · have : name = s.src := (glob_literal h1 name).mp hm
      simp [rtransform, hdm, h3, this]
  have nil : Literal [] := by intro c hc; simp at hc
  rcases (parse_parsed h).1 with ⟨h1, h2, h3, h4, h5⟩ | ⟨h1, h2, h3, h4, h5, h6⟩ | ⟨h1, h2, h3, h4, h5, h6⟩
  · rw [hd] at h5; cases h5
    exact lit (by rw [h4]; exact nil) nil h3
  · refine lit ?_ (valid_literal (h5 d hd)) h1
    rcases hlit with hf | hp | hl
    · rcases h4 hf with h | h
      · rw [h]; exact nil
      · exact valid_literal h
    · rw [h1] at hp; cases hp
    · exact hl
  · obtain ⟨hv, hs⟩ := h5 d hd
    obtain ⟨p, q, e, hp, hq⟩ := valid_pattern h3 h4
    obtain ⟨p', q', e', hp', hq'⟩ := valid_pattern hv hs
    have hx := hm
    unfold srcMatches at hx
    rw [e, glob_pattern hp hq] at hx
    obtain ⟨x, rfl⟩ := hx
    have hdm : dstMatches s (p' ++ x ++ q') = true := by
      unfold dstMatches; rw [hd]; simp only; rw [e', glob_pattern hp' hq']; exact ⟨x, rfl⟩
    refine ⟨p' ++ x ++ q', ?_, hdm, ?_⟩
    · simp only [transform, hm, h1, hd, Bool.not_true, Bool.false_eq_true, if_false]
      rw [e, e', transformPattern_eq hp hp']
    · simp only [rtransform, hdm, h1, hd, Bool.not_true, Bool.false_eq_true, if_false]
      rw [e, e', transformPattern_eq hp' hp]

/-- **C16**, the other direction. -/
theorem C16_rtransform {input : Bytes} {isFetch : Bool} {s : Spec} (h : parse input isFetch = .ok s)
    (hlit : isFetch = true ∨ s.pattern = true ∨ Literal s.src) (name : Bytes) (hm : dstMatches s name = true) :
    ∃ out, rtransform s name = .ok out ∧ srcMatches s out = true ∧ transform s out = .ok name := by
  have hdst : s.dst ≠ none := by intro e; unfold dstMatches at hm; rw [e] at hm; cases hm
  obtain ⟨d, hd⟩ := Option.ne_none_iff_exists'.mp hdst
  have hx := hm
  unfold dstMatches at hx
  rw [hd] at hx
  simp only at hx
  have lit : Literal s.src → Literal d → s.pattern = false → ∃ out, rtransform s name = .ok out ∧ srcMatches s out = true ∧ transform s out = .ok name := by
    intro h1 h2 h3
    have hsm : srcMatches s s.src = true := (glob_literal h1 _).mpr rfl
    have hname : name = d := (glob_literal h2 name).mp hx
    refine ⟨s.src, ?_, hsm, ?_⟩
    · simp [rtransform, hm, h3]
    · simp [transform, hsm, h3, hd, hname]
  have nil : Literal [] := by intro c hc; simp at hc
  rcases (parse_parsed h).1 with ⟨h1, h2, h3, h4, h5⟩ | ⟨h1, h2, h3, h4, h5, h6⟩ | ⟨h1, h2, h3, h4, h5, h6⟩
  · rw [hd] at h5; cases h5
    exact lit (by rw [h4]; exact nil) nil h3
  · refine lit ?_ (valid_literal (h5 d hd)) h1
    rcases hlit with hf | hp | hl
    · rcases h4 hf with h | h
      · rw [h]; exact nil
      · exact valid_literal h
    · rw [h1] at hp; cases hp
    · exact hl
  · obtain ⟨hv, hs⟩ := h5 d hd
    obtain ⟨p, q, e, hp, hq⟩ := valid_pattern h3 h4
    obtain ⟨p', q', e', hp', hq'⟩ := valid_pattern hv hs
    rw [e', glob_pattern hp' hq'] at hx
    obtain ⟨x, rfl⟩ := hx
    have hsm : srcMatches s (p ++ x ++ q) = true := by
      unfold srcMatches; rw [e, glob_pattern hp hq]; exact ⟨x, rfl⟩
    refine ⟨p ++ x ++ q, ?_, hsm, ?_⟩
    · simp only [rtransform, hm, h1, hd, Bool.not_true, Bool.false_eq_true, if_false]
      rw [e, e', transformPattern_eq hp' hp]
    · simp only [transform, hsm, h1, hd, Bool.not_true, Bool.false_eq_true, if_false]
      rw [e, e', transformPattern_eq hp hp']

/-- What a pattern refspec does: the source side is one asterisk between two literal parts, the destination side too, and what the
asterisk stands for is carried over. -/
theorem C16_pattern {input : Bytes} {isFetch : Bool} {s : Spec} (h : parse input isFetch = .ok s) (hp : s.pattern = true) (hdst : s.dst ≠ none) :
    ∃ a b c d, s.src = a ++ c!"*" :: b ∧ s.dst = some (c ++ c!"*" :: d) ∧
      (∀ name, srcMatches s name = true ↔ ∃ x, name = a ++ x ++ b) ∧ (∀ name, dstMatches s name = true ↔ ∃ x, name = c ++ x ++ d) ∧
      (∀ x, transform s (a ++ x ++ b) = .ok (c ++ x ++ d)) := by
  obtain ⟨dd, hd⟩ := Option.ne_none_iff_exists'.mp hdst
  rcases (parse_parsed h).1 with ⟨_, _, h3, _, _⟩ | ⟨h1, _, _, _, _, _⟩ | ⟨h1, h2, h3, h4, h5, h6⟩
  · rw [hp] at h3; cases h3
  · rw [hp] at h1; cases h1
  · obtain ⟨hv, hs⟩ := h5 dd hd
    obtain ⟨p, q, e, hp, hq⟩ := valid_pattern h3 h4
    obtain ⟨p', q', e', hp', hq'⟩ := valid_pattern hv hs
    have hsm : ∀ name, srcMatches s name = true ↔ ∃ x, name = p ++ x ++ q := by
      intro name; unfold srcMatches; rw [e, glob_pattern hp hq]
    refine ⟨p, q, p', q', e, by rw [hd, e'], hsm, ?_, ?_⟩
    · intro name; unfold dstMatches; rw [hd]; simp only; rw [e', glob_pattern hp' hq']
    · intro x
      have := (hsm (p ++ x ++ q)).mpr ⟨x, rfl⟩
      simp only [transform, this, h1, hd, Bool.not_true, Bool.false_eq_true, if_false]
      rw [e, e', transformPattern_eq hp hp']

/-- Transforming is never undefined, whatever the name is, if there is a destination. -/
theorem C16_defined {input : Bytes} {isFetch : Bool} {s : Spec} (h : parse input isFetch = .ok s) (name : Bytes) :
    (s.dst ≠ none → transform s name ≠ .ub) ∧ rtransform s name ≠ .ub := by
  constructor
  · intro hd
    by_cases hm : srcMatches s name = true
    · cases hp : s.pattern with
      | true =>
        obtain ⟨out, h1, _⟩ := C16_transform h hd (.inr (.inl hp)) name hm
        rw [h1]; intro e; cases e
      | false => simp [transform, hm, hp]
    · simp [transform, hm]
  · by_cases hm : dstMatches s name = true
    · cases hp : s.pattern with
      | true =>
        obtain ⟨out, h1, _⟩ := C16_rtransform h (.inr (.inl hp)) name hm
        rw [h1]; intro e; cases e
      | false => simp [rtransform, hm, hp]
    · simp [rtransform, hm]

/-- A negative pattern refspec has no destination, and transforming any name its source side matches is undefined: the library
dereferences NULL. -/
theorem C16_negative_undefined {input : Bytes} {isFetch : Bool} {s : Spec} (h : parse input isFetch = .ok s) (hp : s.pattern = true) (hd : s.dst = none) :
    (∃ name, srcMatches s name = true) ∧ ∀ name, srcMatches s name = true → transform s name = .ub := by
  constructor
  · rcases (parse_parsed h).1 with ⟨_, _, h3, _, _⟩ | ⟨h1, _, _, _, _, _⟩ | ⟨h1, h2, h3, h4, h5, h6⟩
    · rw [hp] at h3; cases h3
    · rw [hp] at h1; cases h1
    · obtain ⟨p, q, e, hp, hq⟩ := valid_pattern h3 h4
      refine ⟨p ++ [] ++ q, ?_⟩
      unfold srcMatches; rw [e, glob_pattern hp hq]; exact ⟨[], rfl⟩
  · intro name hm
    simp [transform, hm, hp, hd]

/-- A refspec is what its parts say: parsing the text made of the two sides gives the same refspec (with that text),
unless it is a negative pattern. -/
theorem C16_serialize {input : Bytes} {isFetch : Bool} {s : Spec} (h : parse input isFetch = .ok s) (hneg : ¬ (s.pattern = true ∧ (s.dst = none ∨ s.src.head? = some c!"^"))) :
    parse (serialize s) isFetch = .ok { s with string := serialize s } := by
  have hpp := parse_parsed h
  obtain ⟨hpar, hpush, hstr, hforce⟩ := hpp
  -- behind the plus sign
  have key : ∀ force lhs, s.force = force → parseLhs input force lhs isFetch = .ok s → (force = false → lhs.head? ≠ some c!"+") →
      (force = false → s.src.head? ≠ some c!"+") ∧
      parseLhs (serialize s) force (s.src ++ c!":" :: s.dst.getD []) isFetch = .ok { s with string := serialize s } := by
    intro force lhs hf h hplus
    generalize serialize s = input'
    unfold parseLhs at h
    split at h
    · rename_i hm
      cases h
      refine ⟨fun _ => by simp, ?_⟩
      unfold parseLhs
      simp only [Bool.and_eq_true, Bool.not_eq_true', decide_eq_true_eq] at hm
      rw [if_pos (by simp [hm.1])]
    · rename_i hnm
      have hdne : isFetch = false → s.dst.getD [] ≠ [] := by
        intro hff
        rcases hpar with ⟨h1, h2, _, _, _⟩ | ⟨h1, h2, h3, h4, h5, h6⟩ | ⟨h1, h2, h3, h4, h5, h6⟩
        · unfold parseSides at h
          split at h
          · cases h
          · split at h
            · obtain ⟨_, _, h⟩ := bind_ok' h; cases h; cases h2
            · obtain ⟨_, _, h⟩ := bind_ok' h; cases h; cases h2
        · obtain ⟨d, hd⟩ := Option.ne_none_iff_exists'.mp (h6 hff)
          rw [hd]; exact (h5 d hd).nonempty
        · cases hd : s.dst with
          | none => have := (h6 hd).1; rw [hff] at this; cases this
          | some d => exact (h5 d hd).1.nonempty
      have goal : ∀ src rhs, splitColon lhs = (src, rhs) → (force = false → src.head? ≠ some c!"+") →
          (lhs.head? = some c!"^" ↔ src.head? = some c!"^") → (∀ r, rhs = some r → c!":" ∉ r) → (rhs = none → c!":" ∉ src) →
          (force = false → s.src.head? ≠ some c!"+") ∧
          parseLhs input' force (s.src ++ c!":" :: s.dst.getD []) isFetch = .ok { s with string := input' } := by
        intro src rhs hsp hpl hng hcr hcs
        rw [hsp] at h
        simp only at h
        have hsrc : s.src = src := by
          unfold parseSides at h
          split at h
          · cases h
          · split at h
            · obtain ⟨_, _, h⟩ := bind_ok' h; cases h; rfl
            · obtain ⟨_, _, h⟩ := bind_ok' h; cases h; rfl
        refine ⟨fun hh => by rw [hsrc]; exact hpl hh, ?_⟩
        have hcolon : c!":" ∉ s.dst.getD [] ∧ (∀ r, rhs = some r → s.dst.getD [] = r) ∧
            (rhs = none → isFetch = true → s.dst = none) ∧ (rhs = none → isFetch = false → s.dst = some src) := by
          unfold parseSides at h
          split at h
          · cases h
          · cases isFetch with
            | true =>
              rw [if_pos rfl] at h
              obtain ⟨_, _, h⟩ := bind_ok' h
              cases h
              cases rhs with
              | none => exact ⟨by simp [dstOf], by simp, fun _ _ => rfl, fun _ e => absurd e (by simp)⟩
              | some r =>
                by_cases hr : r = []
                · subst hr
                  exact ⟨by simp [dstOf], by rintro r ⟨⟩; rfl, (fun e => (by cases e)), (fun e => (by cases e))⟩
                · simp only [dstOf, hr, ne_eq, not_false_eq_true, decide_true, Bool.true_or, if_true, Option.getD_some]
                  exact ⟨hcr r rfl, by rintro r ⟨⟩; rfl, (fun e => (by cases e)), (fun e => (by cases e))⟩
            | false =>
              rw [if_neg (by simp)] at h
              obtain ⟨_, _, h⟩ := bind_ok' h
              cases h
              cases rhs with
              | none => exact ⟨hcs rfl, by simp, fun _ e => absurd e (by simp), fun _ _ => rfl⟩
              | some r =>
                simp only [dstOf, Bool.not_false, Bool.or_true, if_true, Option.getD_some]
                exact ⟨hcr r rfl, by rintro r ⟨⟩; rfl, (fun e => (by cases e)), (fun e => (by cases e))⟩
        obtain ⟨hc1, hc2, hc3, hc4⟩ := hcolon
        have hhead : ((s.src ++ c!":" :: s.dst.getD []).head? = some c!"^") ↔ lhs.head? = some c!"^" := by
          rw [hng, hsrc]
          cases src with
          | nil => simp
          | cons x src => simp
        unfold parseLhs
        rw [if_neg]
        · rw [splitColon_append hc1]
          simp only [hhead]
          rw [hsrc]
          cases rhs with
          | some r =>
            rw [hc2 r rfl]
            unfold parseSides at h ⊢
            split at h
            · cases h
            · rename_i g hg
              split at h
              · rename_i hff
                obtain ⟨u, hu, h⟩ := bind_ok' h
                cases h
                rw [if_pos hff, hu]
                rfl
              · rename_i hff
                obtain ⟨u, hu, h⟩ := bind_ok' h
                cases h
                rw [if_neg hff, hu]
                rfl
          | none =>
            unfold parseSides at h ⊢
            split at h
            · cases h
            · rename_i g hg
              unfold globRule at hg ⊢
              simp only [Option.isSome_none, Bool.false_and, Bool.not_false, Bool.true_and, Bool.false_or, Bool.false_eq_true, if_false,
                Option.isSome_some, Bool.not_true, Bool.or_false] at hg ⊢
              cases isFetch with
              | true =>
                rw [if_pos rfl] at h
                obtain ⟨u, hu, h⟩ := bind_ok' h
                cases h
                simp only [dstOf, Option.getD_none] at *
                cases hst : src.contains c!"*" with
                | true =>
                  rw [hst, if_pos rfl] at hg
                  split at hg
                  · cases hg
                  · cases hg
                    exact absurd ⟨rfl, .inl trivial⟩ hneg
                | false =>
                  rw [hst] at hg
                  simp only [Bool.false_eq_true, if_false] at hg
                  cases hg
                  simp only [List.contains_nil, Bool.false_eq_true, if_false, if_true, ne_eq, not_true_eq_false, decide_false, Bool.not_true, Bool.or_self]
                  rw [hu]
                  rfl
              | false =>
                rw [if_neg (by simp)] at h
                obtain ⟨u, hu, h⟩ := bind_ok' h
                cases h
                simp only [dstOf, Option.getD_none, Option.getD_some] at *
                have hsne : src ≠ [] := hdne trivial
                have hcp : ∀ g, checkPush src none g = .ok u → checkPush src (some src) g = .ok u := by
                  intro g hu
                  unfold checkPush at hu ⊢
                  obtain ⟨u', h1, h2⟩ := bind_ok' hu
                  rw [h1]
                  simp only [Res.bind_ok, hsne, if_false]
                  exact h2
                by_cases hst : src.contains c!"*" = true
                · simp only [hst, if_true, Bool.false_and, Bool.false_eq_true, if_false] at hg
                  cases hg
                  have hnn : ¬ lhs.head? = some c!"^" := by
                    intro e
                    exact hneg ⟨rfl, .inr (hng.mp e)⟩
                  simp only [hst, if_true, hnn, decide_false, Bool.not_true, Bool.or_self, Bool.false_eq_true, if_false]
                  simp only [Bool.not_false, Bool.or_true, if_true]
                  rw [hcp true hu]
                  rfl
                · have hst : src.contains c!"*" = false := by simpa using hst
                  simp only [hst, Bool.false_eq_true, if_false] at hg
                  cases hg
                  simp only [hst, Bool.false_eq_true, if_false, Bool.not_false, Bool.or_true, if_true]
                  rw [hcp false hu]
                  rfl
        · intro e
          simp only [Bool.and_eq_true, Bool.not_eq_true', decide_eq_true_eq] at e
          have := hdne e.1
          apply this
          have h2 := e.2
          cases hss : s.src with
          | nil => rw [hss] at h2; simpa using h2
          | cons x l => rw [hss] at h2; simp at h2
      rcases splitColon_cases lhs with ⟨h1, h2⟩ | ⟨a, b, h1, h2, h3⟩
      · exact goal lhs none h2 hplus Iff.rfl (by simp) (fun _ => h1)
      · refine goal a (some b) h3 ?_ ?_ (by rintro r ⟨⟩; exact h2) (fun e => (by cases e))
        · intro hh
          have := hplus hh
          rw [h1] at this
          cases a with
          | nil => simp
          | cons x a => simpa using this
        · rw [h1]
          cases a with
          | nil => simp
          | cons x a => simp
  unfold parse at h
  split at h
  · rename_i hp
    have hft : s.force = true := by rw [hforce]; simpa using hp
    have := (key true _ hft h (fun e => (by cases e))).2
    unfold parse
    have hser : serialize s = c!"+" :: (s.src ++ c!":" :: s.dst.getD []) := by simp [serialize, hft]
    rw [if_pos (by rw [hser]; rfl)]
    rw [show (serialize s).tail = s.src ++ c!":" :: s.dst.getD [] by rw [hser]; rfl]
    exact this
  · rename_i hp
    have hft : s.force = false := by rw [hforce]; simpa using hp
    obtain ⟨h1, h2⟩ := key false _ hft h (fun _ => hp)
    unfold parse
    have hser : serialize s = s.src ++ c!":" :: s.dst.getD [] := by simp [serialize, hft]
    rw [if_neg]
    · conv => lhs; rw [show parseLhs (serialize s) false (serialize s) isFetch = parseLhs (serialize s) false (s.src ++ c!":" :: s.dst.getD []) isFetch by
        conv => lhs; rw [show (serialize s) = (serialize s) from rfl]; arg 3; rw [hser]]
      exact h2
    · rw [hser]
      have := h1 rfl
      cases hss : s.src with
      | nil => simp
      | cons x l => rw [hss] at this; simpa using this

/-! ## Concrete cases -/

def tracking : Spec := ⟨b!"+refs/heads/*:refs/remotes/origin/*", b!"refs/heads/*", some b!"refs/remotes/origin/*", true, false, true, false⟩

/-- a fetch refspec as `git remote add` makes it: the hypotheses of the theorems hold -/
example : parse b!"+refs/heads/*:refs/remotes/origin/*" true = .ok tracking := by decide +kernel
example : transform tracking b!"refs/heads/main" = .ok b!"refs/remotes/origin/main" := by
  have h : parse b!"+refs/heads/*:refs/remotes/origin/*" true = .ok tracking := by decide +kernel
  have hm : srcMatches tracking b!"refs/heads/main" = true := by
    unfold srcMatches
    exact (glob_pattern (p := b!"refs/heads/") (q := []) (by unfold Literal; decide +kernel) (by unfold Literal; decide +kernel) _).mpr ⟨b!"main", rfl⟩
  simp only [transform, hm]
  decide +kernel
/-- a push refspec without a destination pushes to the same name -/
example : ∃ s, parse b!"refs/heads/a" false = .ok s ∧ s.dst = some b!"refs/heads/a" := 
  ⟨⟨b!"refs/heads/a", b!"refs/heads/a", some b!"refs/heads/a", false, true, false, false⟩, by decide +kernel, rfl⟩
/-- a negative refspec, and one that does not parse -/
example : ∃ s, parse b!"^refs/heads/w/*" true = .ok s ∧ s.pattern = true ∧ s.dst = none := 
  ⟨⟨b!"^refs/heads/w/*", b!"^refs/heads/w/*", none, false, false, true, false⟩, by decide +kernel, rfl, rfl⟩
example : parse b!"refs/heads/*:refs/remotes/origin/main" true = .err RefName.EINVALIDSPEC := by decide +kernel

/-- The source of a push refspec without a pattern is not checked, but is used as a pattern: "a?c" matches "abc", and the way back does not
lead to "abc". -/
theorem C16_push_source_unchecked : ∃ s, parse b!"a?c:refs/heads/x" false = .ok s ∧ srcMatches s b!"abc" = true ∧
    transform s b!"abc" = .ok b!"refs/heads/x" ∧ rtransform s b!"refs/heads/x" = .ok b!"a?c" := by
  have hm : glob b!"a?c" b!"abc" = true := by
    simp [glob, Wildmatch.wildmatch, Wildmatch.dowild, Wildmatch.fold]
  have hd : glob b!"refs/heads/x" b!"refs/heads/x" = true := (glob_literal (by unfold Literal; decide +kernel) _).mpr rfl
  refine ⟨⟨b!"a?c:refs/heads/x", b!"a?c", some b!"refs/heads/x", false, true, false, false⟩, by decide +kernel, hm, ?_, ?_⟩
  · simp [transform, srcMatches, hm]
  · simp [rtransform, dstMatches, hd]

end Verif.Refspec
