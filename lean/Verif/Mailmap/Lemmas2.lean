import Verif.Mailmap.Lemmas
/-! # The parser of lines -/
namespace Verif.Mailmap
open Spec (Entry IsWs Blank IsName IsMail Trailer Says given)

theorem isSpace_iff (c : UInt8) : isSpace c = true ↔ IsWs c := by
  unfold isSpace IsWs
  simp only [Bool.or_eq_true, decide_eq_true_eq]
  constructor
  · rintro (((((h | h) | h) | h) | h) | h) <;> simp [h]
  · rintro (h | h | h | h | h | h) <;> simp [h]

theorem isSpace_false (c : UInt8) : isSpace c = false ↔ ¬ IsWs c := by
  rw [← isSpace_iff]; simp

/-! ## Pieces -/

theorem mem_takeWhile_imp {p : UInt8 → Bool} {s : Bytes} {x : UInt8} (h : x ∈ s.takeWhile p) : p x = true := by
  induction s with
  | nil => simp at h
  | cons a s ih =>
    rw [List.takeWhile_cons] at h
    split at h
    · rename_i ha
      rcases List.mem_cons.mp h with rfl | h
      · exact ha
      · exact ih h
    · simp at h

/-- `advance_until` without the context -/
def untilC (s : Bytes) (c : UInt8) : Option (Bytes × Bytes) :=
  match s.dropWhile (fun x => x ≠ c!"#" && x ≠ c) with
  | [] => none
  | x :: r => if x = c!"#" then none else some (s.takeWhile (fun x => x ≠ c!"#" && x ≠ c), r)

theorem dropWhile_head {p : UInt8 → Bool} {s : Bytes} {x : UInt8} {r : Bytes} (h : s.dropWhile p = x :: r) : p x = false := by
  induction s with
  | nil => simp at h
  | cons a s ih =>
    rw [List.dropWhile_cons] at h
    split at h
    · exact ih h
    · rename_i hp; cases h; simpa using hp

theorem untilC_some {s a r : Bytes} {c : UInt8} (hc : c ≠ c!"#") :
    untilC s c = some (a, r) ↔ s = a ++ c :: r ∧ ∀ x ∈ a, x ≠ c!"#" ∧ x ≠ c := by
  constructor
  · intro h
    unfold untilC at h
    split at h
    · cases h
    · rename_i x r' he
      split at h
      · cases h
      · rename_i hx
        cases h
        have hp := dropWhile_head he
        have hxc : x = c := by
          simp only [ne_eq, Bool.and_eq_false_iff, decide_eq_false_iff_not, Decidable.not_not] at hp
          rcases hp with hp | hp
          · exact absurd hp hx
          · exact hp
        subst hxc
        refine ⟨?_, ?_⟩
        · rw [← he, List.takeWhile_append_dropWhile]
        · intro y hy
          have := mem_takeWhile_imp hy
          simpa using this
  · rintro ⟨rfl, ha⟩
    have hd : (a ++ c :: r).dropWhile (fun x => x ≠ c!"#" && x ≠ c) = c :: r := by
      apply dropWhile_append_stop
      · intro x hx; have := ha x hx; simp [this]
      · intro x hx; simp at hx; simp [hx]
    have ht : (a ++ c :: r).takeWhile (fun x => x ≠ c!"#" && x ≠ c) = a := by
      rw [List.takeWhile_append_of_pos (by intro x hx; have := ha x hx; simp [this])]
      rw [List.takeWhile_cons_of_neg (by simp)]; simp
    unfold untilC
    rw [hd]
    dsimp only
    rw [if_neg hc, ht]

/-- `is_eol` without the context -/
def eol (s : Bytes) : Bool :=
  match (s.dropWhile isSpace).head? with
  | none => true
  | some c => c = c!"#"

/-- the end of a line: nothing, or a line feed -/
def Nl (nl : Bytes) : Prop := nl = [] ∨ nl = [c!"\n"]

theorem dropWhile_nl (p : UInt8 → Bool) {nl : Bytes} (hnl : Nl nl) (hp : p c!"\n" = true) (s : Bytes) :
    (s ++ nl).dropWhile p = if s.dropWhile p = [] then [] else s.dropWhile p ++ nl := by
  rw [List.dropWhile_append]
  by_cases h : s.dropWhile p = []
  · rw [h]; rcases hnl with rfl | rfl <;> simp [hp]
  · rw [if_neg h]; simp [h]

theorem isEol_nl {nl : Bytes} (hnl : Nl nl) (s rest : Bytes) : isEol ⟨s ++ nl, rest⟩ = eol s := by
  unfold isEol eol
  dsimp only
  rw [dropWhile_nl isSpace hnl (by decide)]
  by_cases h : s.dropWhile isSpace = []
  · rw [h]; simp
  · rw [if_neg h]
    cases hd : s.dropWhile isSpace with
    | nil => exact absurd hd h
    | cons a l => simp

theorem advanceWs_nl {nl : Bytes} (hnl : Nl nl) (s rest : Bytes) (hs : c!"\n" ∉ s) :
    advanceWs ⟨s ++ nl, rest⟩ = ⟨s.dropWhile isSpace ++ nl, rest⟩ := by
  unfold advanceWs
  congr 1
  dsimp only
  induction s with
  | nil => rcases hnl with rfl | rfl <;> simp
  | cons a s ih =>
    have ha : a ≠ c!"\n" := by rintro rfl; simp at hs
    have hs' : c!"\n" ∉ s := by intro h; exact hs (by simp [h])
    rw [List.cons_append, List.dropWhile_cons, List.dropWhile_cons]
    by_cases hsp : isSpace a = true
    · rw [if_pos (by simp [ha, hsp]), if_pos hsp]; exact ih hs'
    · rw [if_neg (by simp [hsp]), if_neg hsp]; rfl

theorem advanceUntil_some {nl : Bytes} (hnl : Nl nl) {s a r : Bytes} {c : UInt8} (rest : Bytes) (h : untilC s c = some (a, r)) (hc : c ≠ c!"\n") :
    advanceUntil ⟨s ++ nl, rest⟩ c = (some a, ⟨r ++ nl, rest⟩) := by
  unfold untilC at h
  unfold advanceUntil
  dsimp only
  rw [dropWhile_nl _ hnl (by simp [Ne.symm hc])]
  split at h
  · cases h
  · rename_i x r' he
    rw [he, if_neg (by simp)]
    split at h
    · cases h
    · rename_i hx
      cases h
      simp only [List.cons_append]
      rw [if_neg hx]
      have : (s ++ nl).takeWhile (fun x => x ≠ c!"#" && x ≠ c) = s.takeWhile (fun x => x ≠ c!"#" && x ≠ c) := by
        have hsp : s = s.takeWhile (fun x => x ≠ c!"#" && x ≠ c) ++ x :: r := by rw [← he, List.takeWhile_append_dropWhile]
        have hpx := dropWhile_head he
        rw [hsp, List.append_assoc, List.takeWhile_append_of_pos (fun y hy => mem_takeWhile_imp hy),
          List.takeWhile_append_of_pos (fun y hy => mem_takeWhile_imp hy)]
        rw [List.cons_append, List.takeWhile_cons_of_neg (by rw [hpx]; exact Bool.false_ne_true), List.takeWhile_cons_of_neg (by rw [hpx]; exact Bool.false_ne_true)]
      rw [this]; simp [advanceChars]

theorem advanceUntil_none {nl : Bytes} (hnl : Nl nl) {s : Bytes} {c : UInt8} (rest : Bytes) (h : untilC s c = none) (hc : c ≠ c!"\n") :
    ∃ x, advanceUntil ⟨s ++ nl, rest⟩ c = (none, ⟨x, rest⟩) := by
  unfold untilC at h
  unfold advanceUntil
  dsimp only
  rw [dropWhile_nl _ hnl (by simp [Ne.symm hc])]
  split at h
  · rename_i he
    rw [he]; exact ⟨[], by simp⟩
  · rename_i x r' he
    rw [he, if_neg (by simp)]
    split at h
    · rename_i hx
      exact ⟨_, by simp only [List.cons_append]; rw [if_pos hx]⟩
    · cases h

/-! ## The line -/

/-- the second half of a line -/
def fline2 (rn m r : Bytes) : Option Parsed :=
  if eol r then some ⟨rn, [], [], m⟩
  else
    match untilC (r.dropWhile isSpace) c!"<" with
    | none => none
    | some (n', r2) =>
      match untilC r2 c!">" with
      | none => none
      | some (m', r3) => if eol r3 then some ⟨rn, m, rtrim n', m'⟩ else none

/-- a line without its line feed -/
def fline (l : Bytes) : Option Parsed :=
  match untilC (l.dropWhile isSpace) c!"<" with
  | none => none
  | some (n, r) =>
    match untilC r c!">" with
    | none => none
    | some (m, r') => fline2 (rtrim n) m r'

theorem untilC_sub {s a r : Bytes} {c : UInt8} (hc : c ≠ c!"#") (h : untilC s c = some (a, r)) (hs : c!"\n" ∉ s) : c!"\n" ∉ r := by
  obtain ⟨rfl, _⟩ := (untilC_some hc).mp h
  intro hr; exact hs (by simp [hr])

theorem not_mem_dropWhile {s : Bytes} {c : UInt8} (p : UInt8 → Bool) (h : c ∉ s) : c ∉ s.dropWhile p :=
  fun hm => h ((List.dropWhile_sublist p).mem hm)

theorem parseSecond_nl {nl : Bytes} (hnl : Nl nl) (rn m r rest : Bytes) (hr : c!"\n" ∉ r) :
    (∀ q, fline2 rn m r = some q → ∃ t, parseSecond rn m ⟨r ++ nl, rest⟩ = (some q, ⟨t ++ nl, rest⟩) ∧ eol t = true ∧ c!"\n" ∉ t) ∧
    (fline2 rn m r = none → ∃ x, parseSecond rn m ⟨r ++ nl, rest⟩ = (none, ⟨x, rest⟩)) := by
  unfold fline2 parseSecond
  rw [isEol_nl hnl]
  by_cases he : eol r = true
  · rw [if_pos he, if_pos he]
    exact ⟨fun q hq => by cases hq; exact ⟨r, rfl, he, hr⟩, nofun⟩
  · rw [if_neg he, if_neg he, advanceWs_nl hnl r rest hr]
    cases h1 : untilC (r.dropWhile isSpace) c!"<" with
    | none =>
      obtain ⟨x, hx⟩ := advanceUntil_none hnl rest h1 (by decide)
      rw [hx]
      exact ⟨nofun, fun _ => ⟨x, rfl⟩⟩
    | some p =>
      obtain ⟨n', r2⟩ := p
      have hr2 := untilC_sub (by decide) h1 (not_mem_dropWhile _ hr)
      rw [advanceUntil_some hnl rest h1 (by decide)]
      dsimp only
      cases h2 : untilC r2 c!">" with
      | none =>
        obtain ⟨x, hx⟩ := advanceUntil_none hnl rest h2 (by decide)
        rw [hx]
        exact ⟨nofun, fun _ => ⟨x, rfl⟩⟩
      | some p =>
        obtain ⟨m', r3⟩ := p
        have hr3 := untilC_sub (by decide) h2 hr2
        rw [advanceUntil_some hnl rest h2 (by decide)]
        dsimp only
        rw [isEol_nl hnl]
        by_cases h3 : eol r3 = true
        · rw [if_pos h3, if_pos h3]
          exact ⟨fun q hq => by cases hq; exact ⟨r3, rfl, h3, hr3⟩, nofun⟩
        · rw [if_neg h3, if_neg h3]
          exact ⟨nofun, fun _ => ⟨_, rfl⟩⟩

theorem untilC_eol {s : Bytes} (h : eol s = true) (c : UInt8) : untilC (s.dropWhile isSpace) c = none := by
  unfold eol at h
  unfold untilC
  cases hd : s.dropWhile isSpace with
  | nil => simp
  | cons a l =>
    rw [hd] at h
    simp only [List.head?_cons, decide_eq_true_eq] at h
    subst h
    simp

theorem parseEntry_nl {nl : Bytes} (hnl : Nl nl) (l rest : Bytes) (hl : c!"\n" ∉ l) :
    (∀ q, fline l = some q → ∃ t, parseEntry ⟨l ++ nl, rest⟩ = (some q, ⟨t ++ nl, rest⟩) ∧ eol t = true ∧ c!"\n" ∉ t) ∧
    (fline l = none → ∃ x, parseEntry ⟨l ++ nl, rest⟩ = (none, ⟨x, rest⟩)) := by
  unfold fline parseEntry
  rw [advanceWs_nl hnl l rest hl, isEol_nl hnl]
  by_cases he : eol (l.dropWhile isSpace) = true
  · have he' : eol l = true := by
      unfold eol at he ⊢
      have hi : ∀ s : Bytes, (s.dropWhile isSpace).dropWhile isSpace = s.dropWhile isSpace := by
        intro s
        induction s with
        | nil => rfl
        | cons a s ih =>
          by_cases ha : isSpace a = true
          · simp only [List.dropWhile_cons, ha, if_true]; exact ih
          · simp [ha]
      rw [hi] at he; exact he
    rw [if_pos he, untilC_eol he']
    exact ⟨nofun, fun _ => ⟨_, rfl⟩⟩
  · rw [if_neg he]
    cases h1 : untilC (l.dropWhile isSpace) c!"<" with
    | none =>
      obtain ⟨x, hx⟩ := advanceUntil_none hnl rest h1 (by decide)
      rw [hx]
      exact ⟨nofun, fun _ => ⟨x, rfl⟩⟩
    | some p =>
      obtain ⟨n, r⟩ := p
      have hr := untilC_sub (by decide) h1 (not_mem_dropWhile _ hl)
      rw [advanceUntil_some hnl rest h1 (by decide)]
      dsimp only
      cases h2 : untilC r c!">" with
      | none =>
        obtain ⟨x, hx⟩ := advanceUntil_none hnl rest h2 (by decide)
        rw [hx]
        exact ⟨nofun, fun _ => ⟨x, rfl⟩⟩
      | some p =>
        obtain ⟨m, r'⟩ := p
        rw [advanceUntil_some hnl rest h2 (by decide)]
        exact parseSecond_nl hnl _ _ _ rest (untilC_sub (by decide) h2 hr)

/-! ## The grammar -/

/-- the entry of the four texts -/
def toEntry (p : Parsed) : Entry := ⟨given p.realName, given p.realEmail, given p.name, p.email⟩

theorem rtrim_append {n w : Bytes} (hn : ∀ c, n.getLast? = some c → ¬ IsWs c) (hw : Blank w) : rtrim (n ++ w) = n := by
  unfold rtrim
  rw [List.reverse_append, dropWhile_append_stop, List.reverse_reverse]
  · intro x hx; exact (isSpace_iff x).mpr (hw x (by simpa using hx))
  · intro x hx
    rw [List.head?_reverse] at hx
    exact (isSpace_false x).mpr (hn x hx)

theorem rtrim_split (s : Bytes) : ∃ w, s = rtrim s ++ w ∧ Blank w ∧ ∀ c, (rtrim s).getLast? = some c → ¬ IsWs c := by
  refine ⟨(s.reverse.takeWhile isSpace).reverse, ?_, ?_, ?_⟩
  · unfold rtrim
    rw [← List.reverse_append, List.takeWhile_append_dropWhile, List.reverse_reverse]
  · intro c hc
    exact (isSpace_iff c).mp (mem_takeWhile_imp (by simpa using hc))
  · intro c hc
    unfold rtrim at hc
    rw [List.getLast?_reverse] at hc
    cases hd : s.reverse.dropWhile isSpace with
    | nil => rw [hd] at hc; simp at hc
    | cons x r =>
      rw [hd] at hc
      simp only [List.head?_cons, Option.some.injEq] at hc
      subst hc
      exact (isSpace_false x).mp (dropWhile_head hd)

theorem ws_split (s : Bytes) : ∃ w, s = w ++ s.dropWhile isSpace ∧ Blank w :=
  ⟨s.takeWhile isSpace, by rw [List.takeWhile_append_dropWhile], fun c hc => (isSpace_iff c).mp (mem_takeWhile_imp hc)⟩

theorem ws_not {c : UInt8} (h : IsWs c) : c ≠ c!"#" ∧ c ≠ c!"<" := by
  rcases h with h | h | h | h | h | h <;> subst h <;> decide

/-- what is found up to `<` -/
theorem name_found {w n w' r : Bytes} (hw : Blank w) (hn : IsName n) (hw' : Blank w') :
    ∃ a, untilC ((w ++ n ++ w' ++ c!"<" :: r).dropWhile isSpace) c!"<" = some (a, r) ∧ rtrim a = n ∧
      eol (w ++ n ++ w' ++ c!"<" :: r) = false := by
  have hd : ∃ a, (w ++ n ++ w' ++ c!"<" :: r).dropWhile isSpace = a ++ c!"<" :: r ∧ rtrim a = n ∧ ∀ x ∈ a, x ≠ c!"#" ∧ x ≠ c!"<" := by
    by_cases h : n = []
    · subst h
      refine ⟨[], ?_, rfl, by simp⟩
      have : w ++ [] ++ w' ++ c!"<" :: r = (w ++ w') ++ c!"<" :: r := by simp
      rw [this, List.nil_append]
      apply dropWhile_append_stop
      · intro x hx
        rcases List.mem_append.mp hx with hx | hx
        · exact (isSpace_iff x).mpr (hw x hx)
        · exact (isSpace_iff x).mpr (hw' x hx)
      · intro x hx
        simp at hx; subst hx; decide
    · refine ⟨n ++ w', ?_, rtrim_append hn.last hw', ?_⟩
      · have : w ++ n ++ w' ++ c!"<" :: r = w ++ (n ++ w' ++ c!"<" :: r) := by simp
        rw [this]
        apply dropWhile_append_stop
        · intro x hx; exact (isSpace_iff x).mpr (hw x hx)
        · intro x hx
          apply (isSpace_false x).mpr
          apply hn.first
          cases n with
          | nil => exact absurd rfl h
          | cons y n => simpa using hx
      · intro x hx
        rcases List.mem_append.mp hx with hx | hx
        · exact ⟨(hn.chars x hx).2, (hn.chars x hx).1⟩
        · exact ws_not (hw' x hx)
  obtain ⟨a, h1, h2, h3⟩ := hd
  refine ⟨a, ?_, h2, ?_⟩
  · rw [h1]; exact (untilC_some (by decide)).mpr ⟨rfl, h3⟩
  · unfold eol
    rw [h1]
    cases a with
    | nil => simp
    | cons x a => have := (h3 x (by simp)).1; simpa using this

theorem mail_found {m r : Bytes} (hm : IsMail m) : untilC (m ++ c!">" :: r) c!">" = some (m, r) :=
  (untilC_some (by decide)).mpr ⟨rfl, fun x hx => ⟨(hm x hx).2, (hm x hx).1⟩⟩

theorem eol_iff (t : Bytes) : eol t = true ↔ Trailer t := by
  constructor
  · intro h
    obtain ⟨w, h1, h2⟩ := ws_split t
    refine ⟨w, t.dropWhile isSpace, h1, h2, ?_⟩
    unfold eol at h
    cases hd : t.dropWhile isSpace with
    | nil => simp
    | cons x r => rw [hd] at h; simpa using h
  · rintro ⟨w, t, rfl, h2, h3⟩
    have : (w ++ t).dropWhile isSpace = t := by
      apply dropWhile_append_stop
      · intro x hx; exact (isSpace_iff x).mpr (h2 x hx)
      · intro x hx
        rcases h3 with h3 | h3
        · rw [h3] at hx; simp at hx
        · rw [h3] at hx; simp at hx; subst hx; decide
    unfold eol
    rw [this]
    rcases h3 with h3 | h3 <;> rw [h3] <;> rfl

/-- a name is what is found up to `<` -/
theorem name_of {s a r : Bytes} (h : untilC (s.dropWhile isSpace) c!"<" = some (a, r)) :
    ∃ w w', s = w ++ rtrim a ++ w' ++ c!"<" :: r ∧ Blank w ∧ IsName (rtrim a) ∧ Blank w' := by
  obtain ⟨h1, h2⟩ := (untilC_some (by decide)).mp h
  obtain ⟨w, h3, h4⟩ := ws_split s
  obtain ⟨w', h5, h6, h7⟩ := rtrim_split a
  refine ⟨w, w', ?_, h4, ⟨?_, ?_, h7⟩, h6⟩
  · rw [List.append_assoc w, ← h5, List.append_assoc, ← h1, ← h3]
  · intro c hc
    have hm : c ∈ a := by rw [h5]; exact List.mem_append_left _ hc
    exact ⟨(h2 c hm).2, (h2 c hm).1⟩
  · intro c hc
    have hne : (s.dropWhile isSpace).head? = some c := by
      rw [h1, h5]
      cases hr : rtrim a with
      | nil => rw [hr] at hc; simp at hc
      | cons x l => rw [hr] at hc; simpa using hc
    cases hd : s.dropWhile isSpace with
    | nil => rw [hd] at hne; simp at hne
    | cons x l =>
      rw [hd] at hne
      simp only [List.head?_cons, Option.some.injEq] at hne
      subst hne
      exact (isSpace_false x).mp (dropWhile_head hd)

theorem mail_of {s m r : Bytes} (h : untilC s c!">" = some (m, r)) : s = m ++ c!">" :: r ∧ IsMail m := by
  obtain ⟨h1, h2⟩ := (untilC_some (by decide)).mp h
  exact ⟨h1, fun x hx => ⟨(h2 x hx).2, (h2 x hx).1⟩⟩

/-- the parser understands exactly the lines of the format -/
theorem says_iff (l : Bytes) (e : Entry) : Says l e ↔ ∃ p, fline l = some p ∧ e = toEntry p := by
  constructor
  · intro h
    cases h with
    | simple w₁ n w₂ m t h1 h2 h3 h4 h5 =>
      obtain ⟨a, g1, g2, _⟩ := name_found (r := m ++ c!">" :: t) h1 h2 h3
      have : w₁ ++ n ++ w₂ ++ b!"<" ++ m ++ b!">" ++ t = w₁ ++ n ++ w₂ ++ c!"<" :: (m ++ c!">" :: t) := by simp
      rw [this]
      refine ⟨⟨n, [], [], m⟩, ?_, rfl⟩
      unfold fline
      rw [g1]
      dsimp only
      rw [mail_found h4, g2]
      dsimp only
      unfold fline2
      rw [if_pos ((eol_iff t).mpr h5)]
    | full w₁ n w₂ m w₃ n' w₄ m' t h1 h2 h3 h4 h5 h6 h7 h8 h9 =>
      obtain ⟨a, g1, g2, _⟩ := name_found (r := m ++ c!">" :: (w₃ ++ n' ++ w₄ ++ c!"<" :: (m' ++ c!">" :: t))) h1 h2 h3
      obtain ⟨a', k1, k2, k3⟩ := name_found (r := m' ++ c!">" :: t) h5 h6 h7
      have : w₁ ++ n ++ w₂ ++ b!"<" ++ m ++ b!">" ++ w₃ ++ n' ++ w₄ ++ b!"<" ++ m' ++ b!">" ++ t =
          w₁ ++ n ++ w₂ ++ c!"<" :: (m ++ c!">" :: (w₃ ++ n' ++ w₄ ++ c!"<" :: (m' ++ c!">" :: t))) := by simp
      rw [this]
      refine ⟨⟨n, m, n', m'⟩, ?_, rfl⟩
      unfold fline
      rw [g1]
      dsimp only
      rw [mail_found h4, g2]
      dsimp only
      unfold fline2
      rw [if_neg (by rw [k3]; simp), k1]
      dsimp only
      rw [mail_found h8, k2]
      dsimp only
      rw [if_pos ((eol_iff t).mpr h9)]
  · rintro ⟨p, hp, rfl⟩
    unfold fline at hp
    cases h1 : untilC (l.dropWhile isSpace) c!"<" with
    | none => rw [h1] at hp; cases hp
    | some x =>
      obtain ⟨a, r⟩ := x
      rw [h1] at hp
      dsimp only at hp
      cases h2 : untilC r c!">" with
      | none => rw [h2] at hp; cases hp
      | some x =>
        obtain ⟨m, r'⟩ := x
        rw [h2] at hp
        dsimp only at hp
        obtain ⟨w, w', e1, b1, b2, b3⟩ := name_of h1
        obtain ⟨e2, b4⟩ := mail_of h2
        unfold fline2 at hp
        by_cases he : eol r' = true
        · rw [if_pos he] at hp
          cases hp
          have := Says.simple w (rtrim a) w' m r' b1 b2 b3 b4 ((eol_iff r').mp he)
          have e : l = w ++ rtrim a ++ w' ++ b!"<" ++ m ++ b!">" ++ r' := by rw [e1, e2]; simp
          rw [e]; exact this
        · rw [if_neg he] at hp
          cases h3 : untilC (r'.dropWhile isSpace) c!"<" with
          | none => rw [h3] at hp; cases hp
          | some x =>
            obtain ⟨a', r2⟩ := x
            rw [h3] at hp
            dsimp only at hp
            cases h4 : untilC r2 c!">" with
            | none => rw [h4] at hp; cases hp
            | some x =>
              obtain ⟨m', r3⟩ := x
              rw [h4] at hp
              dsimp only at hp
              obtain ⟨v, v', e3, b5, b6, b7⟩ := name_of h3
              obtain ⟨e4, b8⟩ := mail_of h4
              by_cases he' : eol r3 = true
              · rw [if_pos he'] at hp
                cases hp
                have := Says.full w (rtrim a) w' m v (rtrim a') v' m' r3 b1 b2 b3 b4 b5 b6 b7 b8 ((eol_iff r3).mp he')
                have e : l = w ++ rtrim a ++ w' ++ b!"<" ++ m ++ b!">" ++ v ++ rtrim a' ++ v' ++ b!"<" ++ m' ++ b!">" ++ r3 := by
                  rw [e1, e2, e3, e4]; simp
                rw [e]; exact this
              · rw [if_neg he'] at hp; cases hp

end Verif.Mailmap
