import Verif.Mailmap.Lemmas3
/-! # Mailmaps: who an author is (C81), and what a mailmap file means (C82) -/
namespace Verif.Mailmap
open Spec

theorem addAll_rep : ∀ (cs : List Call) (mm h : List Entry), Rep mm h → ∃ mm', addAll mm cs = .ok mm' ∧ Rep mm' (h ++ said cs)
  | [], mm, h, hr => ⟨mm, rfl, by simpa [said] using hr⟩
  | c :: cs, mm, h, hr => by
    have hg : ∀ o : Option Bytes, copied (o.getD []) = o.bind given := by
      intro o; cases o with
      | none => rfl
      | some s => exact copied_given s
    unfold addAll addEntry addEntryUnterminated
    dsimp only
    by_cases he : c.email = []
    · rw [if_pos he]
      obtain ⟨mm', h1, h2⟩ := addAll_rep cs mm h hr
      refine ⟨mm', h1, ?_⟩
      have : said (c :: cs) = said cs := by simp [said, Call.says, he]
      rw [this]; exact h2
    · rw [if_neg he]
      obtain ⟨mm1, i1, i2⟩ := insert_rep hr ⟨copied (c.realName.getD []), copied (c.realEmail.getD []), copied (c.name.getD []), c.email⟩
      rw [i1]
      dsimp only
      obtain ⟨mm', h1, h2⟩ := addAll_rep cs mm1 _ i2
      refine ⟨mm', h1, ?_⟩
      have : said (c :: cs) = ⟨copied (c.realName.getD []), copied (c.realEmail.getD []), copied (c.name.getD []), c.email⟩ :: said cs := by
        simp [said, Call.says, he, hg]
      rw [this]
      simpa using h2

/-- After any calls of `git_mailmap_add_entry` on a new mailmap, in any order, `git_mailmap_resolve` says of every author what the last
call for this name and email said, otherwise what the last call for this email without a name said, otherwise what it was given. -/
theorem C81_resolve (cs : List Call) : ∃ mm, addAll [] cs = .ok mm ∧
    ∀ name email, resolve (some mm) name email = .ok (shown (said cs) name email) := by
  obtain ⟨mm, h1, h2⟩ := addAll_rep cs [] [] rep_nil
  exact ⟨mm, h1, fun name email => by simpa using resolve_rep h2 name email⟩

/-- without a mailmap everybody is who they say they are -/
theorem C81_null (name email : Bytes) : resolve none name email = .ok (name, email) := rfl

/-- A call is refused exactly if the email is empty, on every mailmap that calls can make; a NULL email crashes. -/
theorem C81_add_code (cs : List Call) (c : Call) : ∃ mm, addAll [] cs = .ok mm ∧
    (c.email = [] → addEntry mm c.realName c.realEmail c.name (some c.email) = .err (-1)) ∧
    (c.email ≠ [] → ∃ mm', addEntry mm c.realName c.realEmail c.name (some c.email) = .ok mm') ∧
    addEntry mm c.realName c.realEmail c.name none = .ub := by
  obtain ⟨mm, h1, h2⟩ := addAll_rep cs [] [] rep_nil
  refine ⟨mm, h1, ?_, ?_, rfl⟩
  · intro he; unfold addEntry addEntryUnterminated; dsimp only; rw [if_pos he]
  · intro he
    unfold addEntry addEntryUnterminated
    dsimp only
    rw [if_neg he]
    obtain ⟨mm', h3, _⟩ := insert_rep h2 ⟨copied (c.realName.getD []), copied (c.realEmail.getD []), copied (c.name.getD []), c.email⟩
    exact ⟨mm', h3⟩

/-- A text always adds what it gives, whatever it contains: the parser reads inside the text only, and comes to an end. -/
theorem addText_rep (text : Bytes) {mm h : List Entry} (hr : Rep mm h) :
    ∃ es mm', Gives text es ∧ addText mm (some text) = .ok mm' ∧ Rep mm' (h ++ es) := by
  unfold addText
  dsimp only
  by_cases hz : (0 : UInt8) ∈ text
  · exact ⟨[], mm, .nul _ hz, by unfold addBuffer; rw [if_pos hz], by simpa using hr⟩
  · obtain ⟨ls, hl⟩ := lines_exist text
    obtain ⟨es, c, mm', h1, h2, h3, _⟩ := addBuffer_lines hl hz hr
    rw [h2]
    exact ⟨_, mm', .lines _ _ _ hz hl h1, rfl, h3⟩

theorem addOption_rep (o : Option Bytes) {mm h : List Entry} (hr : Rep mm h) :
    ∃ hs mm', List.Forall₂ Gives o.toList hs ∧ addText mm o = .ok mm' ∧ Rep mm' (h ++ hs.flatten) := by
  cases o with
  | none => exact ⟨[], mm, .nil, rfl, by simpa using hr⟩
  | some text =>
    obtain ⟨es, mm', h1, h2, h3⟩ := addText_rep text hr
    exact ⟨[es], mm', .cons h1 .nil, h2, by simpa using h3⟩

theorem forall2_append {α β : Type} {p : α → β → Prop} {a a' : List α} {b b' : List β} (h : List.Forall₂ p a b) (h' : List.Forall₂ p a' b') :
    List.Forall₂ p (a ++ a') (b ++ b') := by
  induction h with
  | nil => exact h'
  | cons h1 _ ih => exact .cons h1 ih

theorem takeWhile_all {es : List Entry} (h : ∀ e ∈ es, e.email ≠ []) : es.takeWhile (fun e => e.email ≠ []) = es := by
  induction es with
  | nil => rfl
  | cons e es ih =>
    rw [List.takeWhile_cons_of_pos (by simpa using h e (by simp)), ih (fun x hx => h x (by simp [hx]))]

/-- The mailmap of a repository is made of its three texts, in that order, and can be added to. -/
theorem C81_repository (r : Repo) (cs : List Call) : ∃ hs mm mm', List.Forall₂ Gives (sources r) hs ∧ fromRepository r = .ok mm ∧
    addAll mm cs = .ok mm' ∧ ∀ name email, resolve (some mm') name email = .ok (shown (hs.flatten ++ said cs) name email) := by
  obtain ⟨h1, m1, a1, b1, c1⟩ := addOption_rep (if r.bare then none else r.file b!".mailmap") rep_nil
  obtain ⟨h2, m2, a2, b2, c2⟩ := addOption_rep ((blobRev r).bind r.blob) c1
  obtain ⟨h3, m3, a3, b3, c3⟩ := addOption_rep (r.cfgFile.bind r.file) c2
  obtain ⟨m4, d1, d2⟩ := addAll_rep cs m3 _ c3
  refine ⟨h1 ++ h2 ++ h3, m3, m4, ?_, ?_, d1, ?_⟩
  · unfold sources
    refine forall2_append (forall2_append ?_ ?_) ?_
    · cases hb : r.bare <;> rw [hb] at a1 <;> exact a1
    · unfold blobRev at a2
      cases hc : r.cfgBlob with
      | some rev => rw [hc] at a2; exact a2
      | none =>
        rw [hc] at a2
        cases hb : r.bare <;> rw [hb] at a2 <;> exact a2
    · cases hc : r.cfgFile <;> rw [hc] at a3 <;> exact a3
  · unfold fromRepository addFromRepository
    rw [b1, Res.bind_ok, b2, Res.bind_ok, b3]
  · intro name email
    have := resolve_rep d2 name email
    simpa using this

/-- `git_mailmap_from_buffer` reads a text by its lines: the entries of the lines that have the form of an entry, in order, are
the history of the mailmap; the other lines are skipped. -/
theorem C82_buffer (text : Bytes) (ls : List Bytes) (hz : (0 : UInt8) ∉ text) (hl : LinesOf ls text) :
    ∃ es, Reads ls es ∧
      ((∀ e ∈ es, e.email ≠ []) → ∃ mm, fromBuffer text = .ok mm ∧
        ∀ cs, ∃ mm', addAll mm cs = .ok mm' ∧ ∀ name email, resolve (some mm') name email = .ok (shown (es ++ said cs) name email)) := by
  obtain ⟨es, c, mm, h1, h2, h3, h4⟩ := addBuffer_lines hl hz rep_nil
  refine ⟨es, h1, ?_⟩
  intro hne
  have hc : c = 0 := by
    rcases h4 with ⟨h4, _⟩ | ⟨_, e, h5, h6⟩
    · exact h4
    · exact absurd h6 (hne e h5)
  have hu : upTo es = es := by
    unfold upTo
    exact takeWhile_all hne
  refine ⟨mm, ?_, ?_⟩
  · unfold fromBuffer; rw [h2]; dsimp only; rw [hc, if_neg (by decide)]
  · intro cs
    rw [hu] at h3
    obtain ⟨mm', d1, d2⟩ := addAll_rep cs mm _ h3
    exact ⟨mm', d1, fun name email => by simpa using resolve_rep d2 name email⟩

/-- The whole text is refused exactly if it contains a NUL byte, or if some line gives an empty email for the author to be replaced. -/
theorem C82_refused (text : Bytes) (ls : List Bytes) (hl : LinesOf ls text) (es : List Entry) (hr : Reads ls es) :
    fromBuffer text = .err (-1) ↔ ((0 : UInt8) ∈ text ∨ ∃ e ∈ es, e.email = []) := by
  unfold fromBuffer
  by_cases hz : (0 : UInt8) ∈ text
  · simp only [hz, true_or, iff_true]
    unfold addBuffer; rw [if_pos hz]; rfl
  · obtain ⟨es', c, mm, h1, h2, h3, h4⟩ := addBuffer_lines hl hz rep_nil
    cases reads_unique hr h1
    rw [h2]
    dsimp only
    rcases h4 with ⟨h4, h5⟩ | ⟨h4, h5⟩
    · rw [h4, if_neg (by decide)]
      constructor
      · intro h; cases h
      · rintro (h | ⟨e, h6, h7⟩)
        · exact absurd h hz
        · exact absurd h7 (h5 e h6)
    · rw [h4, if_pos (by decide)]
      exact ⟨fun _ => .inr h5, fun _ => rfl⟩

/-- A line says at most one thing. -/
theorem C82_unambiguous (l : Bytes) (e e' : Entry) (h : Says l e) (h' : Says l e') : e = e' := by
  obtain ⟨p, hp, rfl⟩ := (says_iff l e).mp h
  obtain ⟨p', hp', rfl⟩ := (says_iff l e').mp h'
  rw [hp] at hp'; cases hp'; rfl

/-- Every text has lines, and they are read in one way only. -/
theorem C82_lines (text : Bytes) : ∃ ls, LinesOf ls text ∧ ∀ es es', Reads ls es → Reads ls es' → es = es' := by
  obtain ⟨ls, h⟩ := lines_exist text
  exact ⟨ls, h, fun _ _ h1 h2 => reads_unique h1 h2⟩

/-! ### Concrete cases -/

/-- a mailmap with a rule for everybody who commits as `a@x`, a later one for Bob only, and a comment -/
def sample : Bytes := b!"# who is who\nAlice <a@x>\n\nRobert <r@y> Bob <a@x> # our Bob\nno email\n"

example : (fromBuffer sample).bind (fun mm => resolve (some mm) b!"Bob" b!"a@x") = .ok (b!"Robert", b!"r@y") := by decide +kernel

example : (fromBuffer sample).bind (fun mm => resolve (some mm) b!"al" b!"a@x") = .ok (b!"Alice", b!"a@x") := by decide +kernel

example : (fromBuffer sample).bind (fun mm => resolve (some mm) b!"Bob" b!"b@x") = .ok (b!"Bob", b!"b@x") := by decide +kernel

/-- an empty email anywhere loses the whole file -/
example : fromBuffer b!"Alice <a@x>\nNobody <>\nBob <b@x>\n" = .err (-1) := by decide +kernel

/-- the email of the author to be shown may be empty; then it is not replaced -/
example : (fromBuffer b!"Alice <> <a@x>").bind (fun mm => resolve (some mm) b!"al" b!"a@x") = .ok (b!"Alice", b!"a@x") := by decide +kernel

/-- a later rule replaces an earlier one for the same author as a whole: the name given first is lost (git would keep it) -/
example : (fromBuffer b!"Alice <a@x>\n<b@x> <a@x>\n").bind (fun mm => resolve (some mm) b!"al" b!"a@x") = .ok (b!"al", b!"b@x") := by decide +kernel

/-- a `#` inside a name makes the line a non-entry (git only knows comments at the beginning of a line) -/
example : (fromBuffer b!"Alice #1 <a@x>\n").bind (fun mm => resolve (some mm) b!"al" b!"a@x") = .ok (b!"al", b!"a@x") := by decide +kernel

example : ∃ e, Says b!"Robert <r@y> Bob <a@x> # our Bob" e ∧ e = ⟨some b!"Robert", some b!"r@y", some b!"Bob", b!"a@x"⟩ :=
  ⟨_, (says_iff _ _).mpr ⟨⟨b!"Robert", b!"r@y", b!"Bob", b!"a@x"⟩, by decide +kernel, rfl⟩, by decide⟩

example : shown (said [⟨some b!"A", none, none, b!"x"⟩, ⟨some b!"B", some b!"y", some b!"b", b!"x"⟩]) b!"b" b!"x" = (b!"B", b!"y") := by decide +kernel

/-- a bare repository with a default blob and a configured file that overrides it -/
def sampleRepo : Repo := ⟨true, fun p => if p = b!"mm" then some b!"Zoe <z@x> <a@x>\n" else none,
  fun r => if r = b!"HEAD:.mailmap" then some b!"Alice <a@x>\nEve <e@x>" else none, none, some b!"mm"⟩

example : sources sampleRepo = [b!"Alice <a@x>\nEve <e@x>", b!"Zoe <z@x> <a@x>\n"] := by decide +kernel

example : (fromRepository sampleRepo).bind (fun mm => resolve (some mm) b!"al" b!"a@x") = .ok (b!"Zoe", b!"z@x") := by decide +kernel

end Verif.Mailmap
