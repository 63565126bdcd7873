import Verif.Mailmap.Lemmas2
/-! # The parser of texts, and histories -/
namespace Verif.Mailmap
open Spec (Entry Says Reads LinesOf given)

theorem copied_given (s : Bytes) : copied s = given s := by
  unfold copied given
  cases s <;> simp

theorem ctxInit_nil : ctxInit [] = ⟨[], []⟩ := rfl

theorem ctxInit_last (l : Bytes) (h : c!"\n" ∉ l) : ctxInit l = ⟨l ++ [], []⟩ := by
  unfold ctxInit lineLen
  rw [if_neg h]; simp

theorem ctxInit_line (l rest : Bytes) (h : c!"\n" ∉ l) : ctxInit (l ++ c!"\n" :: rest) = ⟨l ++ [c!"\n"], rest⟩ := by
  unfold ctxInit lineLen
  have ht : (l ++ c!"\n" :: rest).takeWhile (fun c => c ≠ c!"\n") = l := by
    rw [List.takeWhile_append_of_pos (by intro x hx; simp; rintro rfl; exact h hx)]
    simp
  rw [if_pos (by simp), ht]
  have e : l ++ c!"\n" :: rest = (l ++ [c!"\n"]) ++ rest := by simp
  have hl : l.length + 1 = (l ++ [c!"\n"]).length := by simp
  rw [e, hl, List.take_left, List.drop_left]

theorem fline_none_of_eol {t : Bytes} (h : eol t = true) : fline t = none := by
  unfold fline; rw [untilC_eol h]

/-- the entries up to the first without an email -/
def upTo (es : List Entry) : List Entry := es.takeWhile (fun e => e.email ≠ [])

theorem addLoop_lines : ∀ (ls : List Bytes), ls ≠ [] → (∀ l ∈ ls, c!"\n" ∉ l) → ∀ (fuel : Nat) (mm h : List Entry), Rep mm h →
    2 * ([c!"\n"].intercalate ls).length + 1 < fuel →
    ∃ es c mm', Reads ls es ∧ addLoop fuel mm (ctxInit ([c!"\n"].intercalate ls)) = .ok (c, mm') ∧ Rep mm' (h ++ upTo es) ∧
      ((c = 0 ∧ ∀ e ∈ es, e.email ≠ []) ∨ (c = -1 ∧ ∃ e ∈ es, e.email = []))
  | [], hne, _, _, _, _, _, _ => absurd rfl hne
  | l :: ls, _, hnl, fuel, mm, h, hr, hf => by
    have hl : c!"\n" ∉ l := hnl l (by simp)
    -- the context at the beginning of this line, and what is left of the lines
    have hctx : ∃ nl rest, Nl nl ∧ ctxInit ([c!"\n"].intercalate (l :: ls)) = ⟨l ++ nl, rest⟩ ∧
        ((ls = [] ∧ nl = [] ∧ rest = [] ∧ 2 * l.length + 1 < fuel) ∨
         (ls ≠ [] ∧ nl = [c!"\n"] ∧ rest = [c!"\n"].intercalate ls ∧ 2 * (l.length + 1 + rest.length) + 1 < fuel)) := by
      cases ls with
      | nil =>
        refine ⟨[], [], .inl rfl, ?_, .inl ⟨rfl, rfl, rfl, ?_⟩⟩
        · simpa [List.intercalate] using ctxInit_last l hl
        · simpa [List.intercalate] using hf
      | cons l2 ls =>
        have e : [c!"\n"].intercalate (l :: l2 :: ls) = l ++ c!"\n" :: [c!"\n"].intercalate (l2 :: ls) := by
          simp [List.intercalate]
        refine ⟨[c!"\n"], [c!"\n"].intercalate (l2 :: ls), .inr rfl, ?_, .inr ⟨by simp, rfl, rfl, ?_⟩⟩
        · rw [e]; exact ctxInit_line l _ hl
        · rw [e] at hf; simp only [List.length_append, List.length_cons] at hf; omega
    obtain ⟨nl, rest, hn, hc, hrest⟩ := hctx
    rw [hc]
    -- what happens from the next line on
    have next : ∀ fuel' mm h, Rep mm h → (ls = [] → 0 < fuel') → (ls ≠ [] → 2 * rest.length + 1 < fuel') →
        ∃ es c mm', Reads ls es ∧ addLoop fuel' mm (ctxInit rest) = .ok (c, mm') ∧ Rep mm' (h ++ upTo es) ∧
          ((c = 0 ∧ ∀ e ∈ es, e.email ≠ []) ∨ (c = -1 ∧ ∃ e ∈ es, e.email = [])) := by
      intro fuel' mm h hr hf0 hf1
      rcases hrest with ⟨h1, _, h3, _⟩ | ⟨h1, _, h3, _⟩
      · subst h1; subst h3
        refine ⟨[], 0, mm, .nil, ?_, by simpa [upTo] using hr, .inl ⟨rfl, by simp⟩⟩
        cases fuel' with
        | zero => exact absurd (hf0 rfl) (by omega)
        | succ n => rfl
      · rw [h3]
        refine addLoop_lines ls h1 (fun x hx => hnl x (by simp [hx])) fuel' mm h hr (by rw [← h3]; exact hf1 h1)
    -- a part of a line that says nothing
    have skipped : ∀ (t : Bytes) fuel' mm h, Rep mm h → c!"\n" ∉ t → fline t = none → (ls = [] → 1 < fuel') → (ls ≠ [] → 2 * rest.length + 2 < fuel') →
        ∃ es c mm', Reads ls es ∧ addLoop fuel' mm ⟨t ++ nl, rest⟩ = .ok (c, mm') ∧ Rep mm' (h ++ upTo es) ∧
          ((c = 0 ∧ ∀ e ∈ es, e.email ≠ []) ∨ (c = -1 ∧ ∃ e ∈ es, e.email = [])) := by
      intro t fuel' mm h hr ht hft hf0 hf1
      cases fuel' with
      | zero => by_cases h0 : ls = []
                · exact absurd (hf0 h0) (by omega)
                · exact absurd (hf1 h0) (by omega)
      | succ n =>
        unfold addLoop
        dsimp only
        by_cases h0 : (t ++ nl).length + rest.length = 0
        · rw [if_pos h0]
          have hnl0 : nl = [] := by
            cases nl with
            | nil => rfl
            | cons a b => simp at h0
          rcases hrest with ⟨h1, _, h3, _⟩ | ⟨h1, h2, _⟩
          · subst h1
            exact ⟨[], 0, mm, .nil, rfl, by simpa [upTo] using hr, .inl ⟨rfl, by simp⟩⟩
          · rw [hnl0] at h2; cases h2
        · rw [if_neg h0]
          obtain ⟨x, hx⟩ := (parseEntry_nl hn t rest ht).2 hft
          rw [hx]
          exact next n mm h hr (fun h => by have := hf0 h; omega) (fun h => by have := hf1 h; omega)
    have hf0 : ls = [] → 2 * l.length + 1 < fuel := by
      intro h0
      rcases hrest with ⟨_, _, _, h4⟩ | ⟨h1, _⟩
      · exact h4
      · exact absurd h0 h1
    have hf1 : ls ≠ [] → 2 * (l.length + 1 + rest.length) + 1 < fuel := by
      intro h0
      rcases hrest with ⟨h1, _⟩ | ⟨_, _, _, h4⟩
      · exact absurd h1 h0
      · exact h4
    cases hfl : fline l with
    | none =>
      obtain ⟨es, c, mm', g1, g2, g3, g4⟩ := skipped l fuel mm h hr hl hfl (fun h => by have := hf0 h; omega) (fun h => by have := hf1 h; omega)
      refine ⟨es, c, mm', .skip _ _ _ ?_ g1, g2, g3, g4⟩
      intro e he
      obtain ⟨p, hp, _⟩ := (says_iff l e).mp he
      rw [hfl] at hp; cases hp
    | some p =>
      have hsay : Says l (toEntry p) := (says_iff l _).mpr ⟨p, hfl, rfl⟩
      have hlen : 0 < l.length := by
        cases l with
        | nil => simp [fline, untilC] at hfl
        | cons a b => simp
      cases fuel with
      | zero =>
        exfalso
        by_cases h0 : ls = []
        · have := hf0 h0; omega
        · have := hf1 h0; omega
      | succ n =>
        obtain ⟨t, ht1, ht2, ht3⟩ := (parseEntry_nl hn l rest hl).1 p hfl
        unfold addLoop
        dsimp only
        rw [if_neg (by simp only [List.length_append]; omega), ht1]
        dsimp only
        unfold addEntryUnterminated
        by_cases he : p.email = []
        · rw [if_pos he]
          -- the rest of the file says something too
          obtain ⟨es, _, _, k1, _⟩ := next (2 * rest.length + 2) [] [] rep_nil (fun _ => by omega) (fun _ => by omega)
          refine ⟨toEntry p :: es, -1, mm, .entry _ _ _ _ hsay k1, rfl, ?_, .inr ⟨rfl, toEntry p, by simp, he⟩⟩
          have : upTo (toEntry p :: es) = [] := by
            unfold upTo
            rw [List.takeWhile_cons_of_neg (by simp [toEntry, he])]
          rw [this]; simpa using hr
        · rw [if_neg he]
          obtain ⟨mm1, i1, i2⟩ := insert_rep hr ⟨copied p.realName, copied p.realEmail, copied p.name, p.email⟩
          rw [i1]
          dsimp only
          have hte : (⟨copied p.realName, copied p.realEmail, copied p.name, p.email⟩ : Entry) = toEntry p := by
            simp only [copied_given, toEntry]
          rw [hte] at i2
          obtain ⟨es, c, mm', g1, g2, g3, g4⟩ := skipped t n mm1 _ i2 ht3 (fline_none_of_eol ht2)
            (fun h => by have := hf0 h; omega) (fun h => by have := hf1 h; omega)
          refine ⟨toEntry p :: es, c, mm', .entry _ _ _ _ hsay g1, g2, ?_, ?_⟩
          · have : upTo (toEntry p :: es) = toEntry p :: upTo es := by
              unfold upTo
              rw [List.takeWhile_cons_of_pos (by simp [toEntry, he])]
            rw [this]; simpa using g3
          · rcases g4 with ⟨q1, q2⟩ | ⟨q1, e, q2, q3⟩
            · refine .inl ⟨q1, ?_⟩
              intro e hm
              rcases List.mem_cons.mp hm with rfl | hm
              · exact he
              · exact q2 e hm
            · exact .inr ⟨q1, e, by simp [q2], q3⟩

theorem reads_unique {ls : List Bytes} {es es' : List Entry} (h : Reads ls es) (h' : Reads ls es') : es = es' := by
  induction h generalizing es' with
  | nil => cases h'; rfl
  | entry l ls e es hs hr ih =>
    cases h' with
    | entry _ _ e' es' hs' hr' =>
      obtain ⟨p, hp, rfl⟩ := (says_iff _ _).mp hs
      obtain ⟨p', hp', rfl⟩ := (says_iff _ _).mp hs'
      rw [hp] at hp'; cases hp'
      rw [ih hr']
    | skip _ _ _ hn _ => exact absurd hs (hn _)
  | skip l ls es hn hr ih =>
    cases h' with
    | entry _ _ e' es' hs' hr' => exact absurd hs' (hn _)
    | skip _ _ _ _ hr' => exact ih hr'

theorem addBuffer_lines {ls : List Bytes} {text : Bytes} (hl : LinesOf ls text) (hz : (0 : UInt8) ∉ text) {mm h : List Entry} (hr : Rep mm h) :
    ∃ es c mm', Reads ls es ∧ addBuffer mm text = .ok (c, mm') ∧ Rep mm' (h ++ upTo es) ∧
      ((c = 0 ∧ ∀ e ∈ es, e.email ≠ []) ∨ (c = -1 ∧ ∃ e ∈ es, e.email = [])) := by
  obtain ⟨h1, h2, h3⟩ := hl
  unfold addBuffer
  rw [if_neg hz, h3]
  exact addLoop_lines ls h1 h2 _ mm h hr (by omega)

theorem lines_exist (text : Bytes) : ∃ ls, LinesOf ls text := by
  induction text with
  | nil => exact ⟨[[]], by simp, by simp, rfl⟩
  | cons a t ih =>
    obtain ⟨ls, h1, h2, h3⟩ := ih
    cases ls with
    | nil => exact absurd rfl h1
    | cons l ls =>
      by_cases ha : a = c!"\n"
      · refine ⟨[] :: l :: ls, by simp, ?_, ?_⟩
        · intro x hx
          rcases List.mem_cons.mp hx with rfl | hx
          · simp
          · exact h2 x hx
        · rw [h3, ha]; simp [List.intercalate]
      · refine ⟨(a :: l) :: ls, by simp, ?_, ?_⟩
        · intro x hx
          rcases List.mem_cons.mp hx with rfl | hx
          · intro hm
            rcases List.mem_cons.mp hm with hm | hm
            · exact ha hm.symm
            · exact h2 l (by simp) hm
          · exact h2 x (by simp [hx])
        · rw [h3]
          cases ls <;> simp [List.intercalate]

end Verif.Mailmap
