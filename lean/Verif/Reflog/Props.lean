import Verif.Reflog.Lemmas
import Mathlib.Data.List.Forall2
/-! # C21: reference logs -/
namespace Verif.Reflog
open Spec
open Sig (Signature cstr)
open ConfigFile (lineOf afterLine)
open Quote (rtrim)
open Quote.Spec (Space)
open Oid.Spec (hex hexVal nibbles)

/-! ### one line -/

theorem parseEntry_eq {old new S T : Bytes} (size : Nat) (ho : old.length = size) (hn : new.length = size) (hs : 0 < size)
    (hS : ∀ c ∈ S, c ≠ c!"\t" ∧ c ≠ c!"\n") (hT : T = [] ∨ T.head? = some c!"\t" ∨ T.head? = some c!"\n") :
    parseEntry size (hex old ++ b!" " ++ hex new ++ S ++ T) = (Sig.parse S [] 0 >>= fun s =>
      .ok { oldId := old, newId := new, committer := s.1, msg := if T.head? = some c!"\t" then some (lineMessage (T.drop 1)) else none }) := by
  unfold parseEntry
  subst ho
  have h1 : old ≠ [] := List.length_pos_iff.mp hs
  have h2 : new ≠ [] := List.length_pos_iff.mp (hn ▸ hs)
  rw [List.append_assoc, List.append_assoc, List.append_assoc, advanceOid_hex old _ h1, Res.bind_ok]
  dsimp only
  have e : advanceSpace (b!" " ++ (hex new ++ (S ++ T))) = .ok (hex new ++ (S ++ T)) := by
    unfold advanceSpace
    rw [if_neg (by simp), if_neg (by simp)]
    rfl
  rw [e, Res.bind_ok, ← hn, advanceOid_hex new _ h2, Res.bind_ok]
  dsimp only
  have hT' : ∀ x, T.head? = some x → (decide (x ≠ c!"\t" ∧ x ≠ c!"\n")) = false := by
    intro x hx
    rcases hT with rfl | hT | hT
    · simp at hx
    · rw [hT] at hx; cases hx; rfl
    · rw [hT] at hx; cases hx; rfl
  have hS' : ∀ x ∈ S, (decide (x ≠ c!"\t" ∧ x ≠ c!"\n")) = true := fun x hx => by simpa using hS x hx
  rw [takeWhile_append_stop _ _ _ hS' hT', dropWhile_append_stop _ _ _ hS' hT']

theorem advanceOid_ok {size : Nat} {line id rest : Bytes} (h : advanceOid size line = .ok (id, rest)) :
    ∃ t, line = t ++ rest ∧ t.length = 2 * size ∧ t.mapM hexVal = some (nibbles id) := by
  unfold advanceOid at h
  split at h
  · cases h
  rename_i hl
  obtain ⟨id', h1, h2⟩ := Sig.bind_inv h
  cases Res.ok.inj h2
  obtain ⟨_, _, vs, h3, h4⟩ := ((Oid.C02_from_prefix size line (2 * size) (by omega)).1 _).mp h1
  refine ⟨line.take (2 * size), (List.take_append_drop _ _).symm, by simp; omega, ?_⟩
  rw [h3, h4]
  simp

theorem advanceOid_text {size : Nat} {t rest id : Bytes} (hs : 0 < size) (ht : t.length = 2 * size) (hv : t.mapM hexVal = some (nibbles id)) :
    advanceOid size (t ++ rest) = .ok (id, rest) := by
  unfold advanceOid
  rw [if_neg (by simp; omega)]
  have := ((Oid.C02_from_prefix size (t ++ rest) (2 * size) (by simp; omega)).1 id).mpr ⟨by omega, by omega, nibbles id, by
    rw [List.take_left' ht, hv], by simp⟩
  rw [this, Res.bind_ok, List.drop_left' ht]

/-- **C21 (lines).** The lines of a log that are entries are exactly those made of the old id in hexadecimal, a space, the new id in
hexadecimal, a signature up to a tab or the end of the line, and after a tab the message; the message is what is between the tab and the end
of the line. -/
theorem C21_line (size : Nat) (hs : 0 < size) (line : Bytes) (e : Entry) :
    parseEntry size line = .ok e ↔
      ∃ o n S T, line = o ++ b!" " ++ n ++ S ++ T ∧ o.length = 2 * size ∧ o.mapM hexVal = some (nibbles e.oldId) ∧
        n.length = 2 * size ∧ n.mapM hexVal = some (nibbles e.newId) ∧ c!"\t" ∉ S ∧ c!"\n" ∉ S ∧
        Sig.parse S [] 0 = .ok (e.committer, []) ∧
        ((∃ r, T = b!"\t" ++ r ∧ ((∃ m, r = m ++ b!"\n" ∧ e.msg = some (cstr m)) ∨ (r.getLast? ≠ some c!"\n" ∧ e.msg = some (cstr r)))) ∨
         ((T = [] ∨ ∃ r, T = b!"\n" ++ r) ∧ e.msg = none)) := by
  constructor
  · intro h
    unfold parseEntry at h
    obtain ⟨⟨o, l1⟩, h1, h⟩ := Sig.bind_inv h
    obtain ⟨l2, h2, h⟩ := Sig.bind_inv h
    obtain ⟨⟨n, l3⟩, h3, h⟩ := Sig.bind_inv h
    obtain ⟨⟨s, r⟩, h4, h⟩ := Sig.bind_inv h
    dsimp only at h h1 h2 h3 h4
    have h := Res.ok.inj h
    subst h
    obtain ⟨t1, e1, g1, g2⟩ := advanceOid_ok h1
    obtain ⟨t2, e2, g3, g4⟩ := advanceOid_ok h3
    have e3 : l1 = c!" " :: l2 := by
      unfold advanceSpace at h2
      split at h2
      · cases h2
      · split at h2
        · cases h2
        · rename_i hh
          cases l1 with
          | nil => simp at hh
          | cons c r =>
            have h2 := Res.ok.inj h2
            simp at hh h2
            rw [hh, h2]
    have hall := takeWhile_all (fun c : UInt8 => decide (c ≠ c!"\t" ∧ c ≠ c!"\n")) l3
    have hhead := dropWhile_head (fun c : UInt8 => decide (c ≠ c!"\t" ∧ c ≠ c!"\n")) l3
    have happ := List.takeWhile_append_dropWhile (p := fun c : UInt8 => decide (c ≠ c!"\t" ∧ c ≠ c!"\n")) (l := l3)
    generalize (l3.takeWhile fun c : UInt8 => decide (c ≠ c!"\t" ∧ c ≠ c!"\n")) = S at *
    generalize (l3.dropWhile fun c : UInt8 => decide (c ≠ c!"\t" ∧ c ≠ c!"\n")) = T at *
    have hr : r = [] := by
      rw [parse_null] at h4
      obtain ⟨a, _, h⟩ := Sig.bind_inv h4
      cases Res.ok.inj h
      rfl
    subst hr
    refine ⟨t1, t2, S, T, ?_, g1, g2, g3, g4, ?_, ?_, h4, ?_⟩
    · rw [e1, e3, e2, ← happ]; simp
    · intro hh; have := hall _ hh; simp at this
    · intro hh; have := hall _ hh; simp at this
    · cases T with
      | nil => exact .inr ⟨.inl rfl, by simp⟩
      | cons c r =>
        have hc := hhead c rfl
        by_cases ht : c = c!"\t"
        · subst ht
          refine .inl ⟨r, rfl, ?_⟩
          simp only [List.head?_cons, if_true, List.drop_succ_cons, List.drop_zero, lineMessage]
          by_cases hl : r.getLast? = some c!"\n"
          · obtain ⟨m, rfl⟩ := List.getLast?_eq_some_iff.mp hl
            refine .inl ⟨m, rfl, ?_⟩
            rw [if_pos hl]
            simp
          · refine .inr ⟨hl, ?_⟩
            rw [if_neg hl]
        · refine .inr ⟨.inr ⟨r, ?_⟩, by simp [ht]⟩
          simp at hc
          rw [hc ht]
          rfl
  · rintro ⟨o, n, S, T, rfl, h1, h2, h3, h4, h5, h6, h7, h8⟩
    unfold parseEntry
    rw [List.append_assoc, List.append_assoc, List.append_assoc, advanceOid_text hs h1 h2, Res.bind_ok]
    dsimp only
    have e0 : advanceSpace (b!" " ++ (n ++ (S ++ T))) = .ok (n ++ (S ++ T)) := by
      unfold advanceSpace
      rw [if_neg (by simp), if_neg (by simp)]
      rfl
    rw [e0, Res.bind_ok, advanceOid_text hs h3 h4, Res.bind_ok]
    dsimp only
    have hT' : ∀ x, T.head? = some x → (decide (x ≠ c!"\t" ∧ x ≠ c!"\n")) = false := by
      intro x hx
      rcases h8 with ⟨r, rfl, _⟩ | ⟨rfl | ⟨r, rfl⟩, _⟩
      · cases hx; rfl
      · simp at hx
      · cases hx; rfl
    have hS' : ∀ x ∈ S, (decide (x ≠ c!"\t" ∧ x ≠ c!"\n")) = true := by
      intro x hx
      simp only [decide_eq_true_eq]
      exact ⟨fun h => h5 (h ▸ hx), fun h => h6 (h ▸ hx)⟩
    rw [takeWhile_append_stop _ _ _ hS' hT', dropWhile_append_stop _ _ _ hS' hT', h7, Res.bind_ok]
    congr 1
    have hm : (if T.head? = some c!"\t" then some (lineMessage (T.drop 1)) else none) = e.msg := by
      rcases h8 with ⟨r, rfl, ⟨m, rfl, h⟩ | ⟨hl, h⟩⟩ | ⟨h8, h⟩
      · rw [h]; simp [lineMessage]
      · rw [h]; simp [lineMessage, hl]
      · rw [h]
        rcases h8 with rfl | ⟨r, rfl⟩ <;> simp
    rw [hm]

/-! ### all lines -/

theorem parseEntry_ne_ub (size : Nat) (line : Bytes) : parseEntry size line ≠ .ub := by
  have ho : ∀ l, advanceOid size l ≠ .ub := by
    intro l
    unfold advanceOid
    split
    · exact fun h => nomatch h
    · have := (Oid.C02_from_prefix size l (2 * size) (by omega)).2.2
      cases h : Oid.fromPrefix size l (2 * size) with
      | ub => exact absurd h this
      | ok a => simp
      | err a => simp
  have ha : ∀ l, advanceSpace l ≠ .ub := by
    intro l
    unfold advanceSpace
    split
    · exact fun h => nomatch h
    · split <;> exact fun h => nomatch h
  unfold parseEntry
  cases h1 : advanceOid size line with
  | ub => exact absurd h1 (ho _)
  | err _ => simp
  | ok a =>
    rw [Res.bind_ok]
    cases h2 : advanceSpace a.2 with
    | ub => exact absurd h2 (ha _)
    | err _ => simp
    | ok b =>
      rw [Res.bind_ok]
      cases h3 : advanceOid size b with
      | ub => exact absurd h3 (ho _)
      | err _ => simp
      | ok c =>
        rw [Res.bind_ok]
        dsimp only
        cases h4 : Sig.parse _ [] 0 with
        | ub => exact absurd h4 (Sig.C12_safe _ _ _)
        | err _ => simp
        | ok d => simp

/-- the entry of a line, if it is one -/
def lineEntry (size : Nat) (line : Bytes) : List Entry :=
  match parseEntry size line with
  | .ok e => [e]
  | _ => []

theorem after_length {t : Bytes} (h : t ≠ []) : (afterLine t).length < t.length := by
  have h1 := congrArg List.length (ConfigFile.line_append t)
  have h2 : lineOf t ≠ [] := by
    cases t with
    | nil => exact absurd rfl h
    | cons c r => rw [lineOf]; split <;> simp
  have := List.length_pos_iff.mpr h2
  rw [List.length_append] at h1
  omega

/-- the entries of a text -/
def entries (size : Nat) (text : Bytes) : Log :=
  if _h : text = [] then [] else lineEntry size (lineOf text) ++ entries size (afterLine text)
termination_by text.length
decreasing_by exact after_length _h

theorem parseLoop_eq (size fuel : Nat) : ∀ text : Bytes, text.length ≤ fuel → parseLoop size fuel text = .ok (entries size text) := by
  induction fuel with
  | zero =>
    intro text h
    have : text = [] := List.length_eq_zero_iff.mp (by omega)
    subst this
    rw [parseLoop, entries, dif_pos rfl]
  | succ n ih =>
    intro text h
    rw [parseLoop, entries]
    by_cases ht : text = []
    · subst ht; rfl
    · have hl := after_length ht
      rw [if_neg (by simpa using ht), dif_neg ht, lineEntry]
      cases hp : parseEntry size (lineOf text) with
      | ub => exact absurd hp (parseEntry_ne_ub _ _)
      | err _ => rw [ih _ (by omega)]; rfl
      | ok e => rw [ih _ (by omega)]; rfl

theorem read_eq (size : Nat) (text : Bytes) : read size text = .ok (entries size text) := parseLoop_eq _ _ _ (Nat.le_refl _)

theorem entries_nil (size : Nat) : entries size [] = [] := by rw [entries, dif_pos rfl]

theorem entries_line (size : Nat) (b T : Bytes) (h : c!"\n" ∉ b) : entries size (b ++ b!"\n" ++ T) = lineEntry size (b ++ b!"\n") ++ entries size T := by
  rw [entries, dif_neg (by simp)]
  have h' : ∀ x ∈ b, x ≠ 10 := fun x hx he => h (he ▸ hx)
  rw [List.append_assoc, show b!"\n" ++ T = 10 :: T from rfl, ConfigFile.lineOf_body b T h', ConfigFile.afterLine_body b T h']

/-- the file has no unfinished line -/
def Complete (file : Bytes) : Prop := file = [] ∨ ∃ a, file = a ++ b!"\n"

theorem entries_append (size : Nat) (a b : Bytes) (h : Complete a) : entries size (a ++ b) = entries size a ++ entries size b := by
  have main : ∀ (n : Nat) (a : Bytes), a.length ≤ n → Complete a → entries size (a ++ b) = entries size a ++ entries size b := by
    intro n
    induction n with
    | zero =>
      intro a h _
      have : a = [] := List.length_eq_zero_iff.mp (by omega)
      subst this
      rw [entries_nil]; rfl
    | succ n ih =>
      intro a hl hc
      rcases hc with rfl | ⟨a', rfl⟩
      · rw [entries_nil]; rfl
      · -- first newline
        have hm : c!"\n" ∈ a' ++ b!"\n" := by simp
        obtain ⟨x, y, hxy, hx⟩ := List.eq_append_cons_of_mem hm
        rw [hxy]
        have e : x ++ c!"\n" :: y = x ++ b!"\n" ++ y := by simp
        have hy : Complete y := by
          by_cases hy : y = []
          · exact .inl hy
          · right
            have := congrArg List.getLast? hxy
            rw [List.getLast?_concat, List.getLast?_append, List.getLast?_cons_of_ne_nil hy] at this
            obtain ⟨z, hz⟩ := List.getLast?_eq_some_iff.mp (show y.getLast? = some c!"\n" by
              cases hg : y.getLast? with
              | none => exact absurd (List.getLast?_eq_none_iff.mp hg) hy
              | some v => rw [hg] at this; exact this.symm)
            exact ⟨z, hz⟩
        have hlen : y.length ≤ n := by
          have := congrArg List.length hxy
          simp at this hl
          omega
        rw [e, List.append_assoc (x ++ b!"\n"), entries_line _ _ _ hx, entries_line _ _ _ hx, ih y hlen hy, List.append_assoc]
  exact main _ _ (Nat.le_refl _) h

/-- **C21 (reading is safe).** Every file can be read: a line that is not an entry is skipped, nothing outside the file is read, and reading ends. -/
theorem C21_safe (size : Nat) (file : Bytes) : ∃ log, read size file = .ok log := ⟨_, read_eq _ _⟩

/-- **C21 (a line at a time).** What is read from a file that ends with a newline is not changed by what is appended to it, and what is appended is read as
if it was alone. -/
theorem C21_concat (size : Nat) (a b : Bytes) (h : Complete a) :
    ∃ la lb, read size a = .ok la ∧ read size b = .ok lb ∧ read size (a ++ b) = .ok (la ++ lb) :=
  ⟨entries size a, entries size b, read_eq _ _, read_eq _ _, by rw [read_eq, entries_append _ _ _ h]⟩

/-- **C21 (which lines).** A line followed by more text gives its entry, if it is one, before those of the rest. -/
theorem C21_lines (size : Nat) (line rest : Bytes) (h : c!"\n" ∉ line) :
    ∃ lr, read size rest = .ok lr ∧
      ((∃ e, parseEntry size (line ++ b!"\n") = .ok e ∧ read size (line ++ b!"\n" ++ rest) = .ok (e :: lr)) ∨
       ((∀ e, parseEntry size (line ++ b!"\n") ≠ .ok e) ∧ read size (line ++ b!"\n" ++ rest) = .ok lr)) := by
  refine ⟨entries size rest, read_eq _ _, ?_⟩
  rw [read_eq, entries_line _ _ _ h, lineEntry]
  cases hp : parseEntry size (line ++ b!"\n") with
  | ub => exact absurd hp (parseEntry_ne_ub _ _)
  | err _ => exact .inr ⟨fun e h => (by cases h), rfl⟩
  | ok e => exact .inl ⟨e, rfl, rfl⟩

/-! ### writing -/

/-- an entry as it is read, with its message -/
def reread (e : Entry) (m : Option Bytes) : Entry :=
  { oldId := e.oldId, newId := e.newId, committer := { e.committer with sign := Sig.written e.committer }, msg := m }

/-- what is written before the message -/
def head (e : Entry) : Bytes := hex e.oldId ++ b!" " ++ hex e.newId ++ (b!" " ++ sigText e.committer)

theorem rtrim_body (x r : Bytes) (p : UInt8) (hp : ¬ Space p) : rtrim (x ++ (r ++ [p]) ++ b!"\n") = x ++ (r ++ [p]) := by
  have hn : ∀ d ∈ b!"\n", Space d := by
    intro d hd
    simp at hd
    subst hd
    decide
  rw [← List.append_assoc]
  exact Quote.rtrim_of (x ++ r) b!"\n" p hp hn

theorem serialize_eq {size : Nat} {e : Entry} (h : Good size e) : serialize size e = .ok (addMessage (head e) e.msg ++ b!"\n") := by
  unfold serialize
  have h1 := idText_eq e.oldId
  have h2 := idText_eq e.newId
  rw [h.old] at h1
  rw [h.new] at h2
  rw [h1, Res.bind_ok, h2, Res.bind_ok, Sig.writebuf_eq]
  congr 3
  obtain ⟨r, p, h3, h4⟩ := sigText_last h.committer
  have e1 : hex e.oldId ++ b!" " ++ hex e.newId ++ (b!" " ++ (e.committer.name ++ c!" " :: c!"<" :: (e.committer.email ++ c!">" :: Sig.timeText e.committer)) ++ b!"\n") =
      (hex e.oldId ++ b!" " ++ hex e.newId ++ b!" ") ++ (r ++ [p]) ++ b!"\n" := by
    rw [← h3]; simp [sigText]
  rw [e1, rtrim_body _ _ _ h4, ← h3]
  simp [head]

theorem head_plain {size : Nat} {e : Entry} (h : Good size e) : c!"\n" ∉ head e := by
  unfold head
  simp only [List.mem_append, not_or]
  exact ⟨⟨⟨fun hh => (hex_plain _ (hex_mem hh)).1 rfl, by decide⟩, fun hh => (hex_plain _ (hex_mem hh)).1 rfl⟩, by decide, fun hh => (sigText_plain h.committer _ hh).2 rfl⟩

theorem head_last {size : Nat} {e : Entry} (h : Good size e) : ∃ r p, head e = r ++ [p] ∧ ¬ Space p := by
  obtain ⟨r, p, h1, h2⟩ := sigText_last h.committer
  refine ⟨hex e.oldId ++ b!" " ++ hex e.newId ++ (b!" " ++ r), p, ?_, h2⟩
  unfold head
  rw [h1]
  simp

theorem parse_head {size : Nat} {e : Entry} (h : Good size e) (hs : 0 < size) {T : Bytes} (hT : T = [] ∨ T.head? = some c!"\t" ∨ T.head? = some c!"\n") :
    parseEntry size (head e ++ T) = .ok (reread e (if T.head? = some c!"\t" then some (lineMessage (T.drop 1)) else none)) := by
  unfold head
  rw [parseEntry_eq size h.old h.new hs _ hT]
  · rw [show b!" " ++ sigText e.committer = c!" " :: sigText e.committer from rfl, parse_sigText h.committer]
    rfl
  · intro c hc
    rcases List.mem_append.mp hc with hc | hc
    · simp at hc; subst hc; decide
    · exact sigText_plain h.committer c hc

theorem lineMessage_nl {t : Bytes} (h : 0 ∉ t) : lineMessage (t ++ b!"\n") = t := by
  unfold lineMessage
  rw [if_pos (by simp)]
  simp [Sig.cstr_self h]

theorem rtrim_sub {s : Bytes} {c : UInt8} (h : c ∈ rtrim s) : c ∈ s := by
  obtain ⟨ws, h1, _⟩ := Quote.rtrim_split s
  rw [h1]
  exact List.mem_append_left _ h

/-- what one written entry reads as -/
theorem serialize_read {size : Nat} {e : Entry} (h : Good size e) (hs : 1 < size) :
    ∃ l k, serialize size e = .ok l ∧ Complete l ∧ entries size l = [k] ∧ SameAs e k := by
  refine ⟨addMessage (head e) e.msg ++ b!"\n", ?_⟩
  have hh := head_plain h
  have one : ∀ (T : Bytes) (k : Entry), c!"\n" ∉ T → parseEntry size (head e ++ T ++ b!"\n") = .ok k → entries size (head e ++ T ++ b!"\n") = [k] := by
    intro T k hT hk
    have hn : c!"\n" ∉ head e ++ T := by
      intro hm
      rcases List.mem_append.mp hm with hm | hm
      · exact hh hm
      · exact hT hm
    have := entries_line size (head e ++ T) [] hn
    rw [List.append_nil] at this
    rw [this, lineEntry, hk, entries_nil]
    rfl
  have plain : parseEntry size (head e ++ b!"\n") = .ok (reread e none) := by
    rw [parse_head h (by omega) (.inr (.inr rfl))]
    rfl
  have tab : ∀ t : Bytes, 0 ∉ t → parseEntry size (head e ++ (b!"\t" ++ t) ++ b!"\n") = .ok (reread e (some t)) := by
    intro t ht
    rw [List.append_assoc, parse_head h (by omega) (.inr (.inl rfl))]
    have := lineMessage_nl ht
    simp only [List.cons_append, List.nil_append, List.head?_cons, if_true, List.drop_succ_cons, List.drop_zero]
    rw [show b!"\n" = [10] from rfl] at this
    rw [this]
  cases hm : e.msg with
  | none =>
    refine ⟨reread e none, by rw [serialize_eq h, hm], .inr ⟨_, rfl⟩, ?_, ⟨rfl, rfl, rfl, by rw [hm]; rfl⟩⟩
    have := one [] _ (by simp) (by rw [List.append_nil]; exact plain)
    rwa [List.append_nil] at this
  | some m =>
    have hz : 0 ∉ m := h.msg m hm
    obtain ⟨r, p, h1, h2⟩ := head_last h
    rcases addMessage_some r m p h2 (h1 ▸ hh) with ⟨a, x, e1, e2, e3⟩ | ⟨e1, e2⟩
    · refine ⟨reread e (some (OneLine a)), by rw [serialize_eq h, hm], .inr ⟨_, rfl⟩, ?_,
        ⟨rfl, rfl, rfl, by rw [hm]; exact .inl ⟨a, x, e1, e2, rfl⟩⟩⟩
      rw [h1, e3, ← h1]
      have hx : x ≠ c!"\n" := fun hx => e2 (hx ▸ by decide)
      have e4 : head e ++ b!"\t" ++ OneLine a ++ [c!"\n", x] ++ b!"\n" = head e ++ (b!"\t" ++ OneLine a) ++ b!"\n" ++ ([x] ++ b!"\n" ++ []) := by simp
      have hza : 0 ∉ OneLine a := oneLine_nul (by rw [e1] at hz; intro hh; exact hz (List.mem_append_left _ hh))
      rw [e4, entries_append _ _ _ (.inr ⟨_, rfl⟩), one _ _ ?_ (tab _ hza), entries_line _ _ _ (by simpa using fun h => hx h.symm), entries_nil, lineEntry]
      · have : parseEntry size ([x] ++ b!"\n") = .err (-1) := by
          unfold parseEntry advanceOid
          rw [if_pos (by simp; omega)]
          rfl
        rw [this]
        rfl
      · intro hmem
        rcases List.mem_append.mp hmem with hmem | hmem
        · exact absurd hmem (by decide)
        · exact oneLine_mem hmem
    · by_cases ht : rtrim (OneLine m) = []
      · refine ⟨reread e (none), by rw [serialize_eq h, hm], .inr ⟨_, rfl⟩, ?_,
          ⟨rfl, rfl, rfl, by rw [hm]; exact .inr ⟨e1, _, trimsTo_rtrim _, by rw [if_pos ht]; rfl⟩⟩⟩
        rw [h1, e2, if_pos ht, ← h1]
        exact one [] _ (by simp) (by rw [List.append_nil]; exact plain)
      · refine ⟨reread e (some (rtrim (OneLine m))), by rw [serialize_eq h, hm], .inr ⟨_, rfl⟩, ?_,
          ⟨rfl, rfl, rfl, by rw [hm]; exact .inr ⟨e1, _, trimsTo_rtrim _, by rw [if_neg ht]; rfl⟩⟩⟩
        rw [h1, e2, if_neg ht, ← h1]
        refine one _ _ ?_ (tab _ fun hh => oneLine_nul hz (rtrim_sub hh))
        intro hmem
        rcases List.mem_append.mp hmem with hmem | hmem
        · exact absurd hmem (by decide)
        · exact oneLine_mem (rtrim_sub hmem)

/-- **C21 (round trip).** A log that is written and read back has the same entries in the same order, with the same ids and committers; messages are in
one line. -/
theorem C21_roundtrip (size : Nat) (hs : 1 < size) (log : Log) (h : ∀ e ∈ log, Good size e) :
    ∃ file back, write size log = .ok file ∧ Complete file ∧ read size file = .ok back ∧ List.Forall₂ SameAs log back := by
  induction log with
  | nil => exact ⟨[], [], rfl, .inl rfl, rfl, .nil⟩
  | cons e r ih =>
    obtain ⟨l, k, h1, h2, h3, h4⟩ := serialize_read (h e (by simp)) hs
    obtain ⟨file, back, g1, g2, g3, g4⟩ := ih fun e he => h e (by simp [he])
    refine ⟨l ++ file, k :: back, ?_, ?_, ?_, .cons h4 g4⟩
    · rw [write, h1, Res.bind_ok, g1, Res.bind_ok]
    · rcases g2 with rfl | ⟨a, rfl⟩
      · rw [List.append_nil]; exact h2
      · exact .inr ⟨l ++ a, by simp⟩
    · rw [read_eq, entries_append _ _ _ h2, h3]
      rw [read_eq] at g3
      rw [Res.ok.inj g3]
      rfl

/-- **C21 (one entry per update).** Updating a reference adds exactly one entry to its log, the newest one, whatever the message is: all entries before it
are read as before. -/
theorem C21_update (size : Nat) (hs : 1 < size) (file : Bytes) (hc : Complete file) (e : Entry) (h : Good size e) :
    ∃ file' log k, appendFile size file e = .ok file' ∧ Complete file' ∧ read size file = .ok log ∧ read size file' = .ok (log ++ [k]) ∧ SameAs e k := by
  obtain ⟨l, k, h1, h2, h3, h4⟩ := serialize_read h hs
  refine ⟨file ++ l, entries size file, k, ?_, ?_, read_eq _ _, ?_, h4⟩
  · rw [appendFile, h1, Res.bind_ok]
  · rcases h2 with rfl | ⟨a, rfl⟩
    · rw [List.append_nil]; exact hc
    · exact .inr ⟨file ++ a, by simp⟩
  · rw [read_eq, entries_append _ _ _ hc, h3]

theorem entries_short (size : Nat) : ∀ (n : Nat) (t : Bytes), t.length ≤ n → t.length < 2 * size → entries size t = [] := by
  intro n
  induction n with
  | zero =>
    intro t h _
    have : t = [] := List.length_eq_zero_iff.mp (by omega)
    subst this
    exact entries_nil _
  | succ n ih =>
    intro t h hl
    by_cases ht : t = []
    · subst ht; exact entries_nil _
    · have h1 := after_length ht
      have h2 := congrArg List.length (ConfigFile.line_append t)
      rw [List.length_append] at h2
      rw [entries, dif_neg ht, ih _ (by omega) (by omega), lineEntry]
      have : parseEntry size (lineOf t) = .err (-1) := by
        unfold parseEntry advanceOid
        rw [if_pos (by omega)]
        rfl
      rw [this]
      rfl

theorem serialize_shape {size : Nat} {e : Entry} (h : Good size e) : ∃ b r, serialize size e = .ok (b ++ b!"\n" ++ r) ∧ c!"\n" ∉ b ∧ r.length ≤ 2 := by
  have hh := head_plain h
  have happ : ∀ T : Bytes, c!"\n" ∉ T → c!"\n" ∉ head e ++ T := by
    intro T hT hm
    rcases List.mem_append.mp hm with hm | hm
    · exact hh hm
    · exact hT hm
  rw [serialize_eq h]
  cases hm : e.msg with
  | none => exact ⟨head e, [], by simp [addMessage], hh, by simp⟩
  | some m =>
    obtain ⟨r, p, h1, h2⟩ := head_last h
    rcases addMessage_some r m p h2 (h1 ▸ hh) with ⟨a, x, e1, e2, e3⟩ | ⟨e1, e2⟩
    · refine ⟨head e ++ (b!"\t" ++ OneLine a), [x, c!"\n"], ?_, happ _ ?_, by simp⟩
      · rw [h1, e3]; simp
      · intro hmem
        rcases List.mem_append.mp hmem with hmem | hmem
        · exact absurd hmem (by decide)
        · exact oneLine_mem hmem
    · refine ⟨head e ++ _, [], by rw [h1, e2, List.append_nil], happ _ ?_, by simp⟩
      split
      · simp
      · intro hmem
        rcases List.mem_append.mp hmem with hmem | hmem
        · exact absurd hmem (by decide)
        · exact oneLine_mem (rtrim_sub hmem)

theorem lineEntry_le (size : Nat) (l : Bytes) : (lineEntry size l).length ≤ 1 := by
  unfold lineEntry
  split <;> simp

theorem lineOf_plain {b : Bytes} (h : c!"\n" ∉ b) : lineOf b = b ∧ afterLine b = [] := by
  induction b with
  | nil => exact ⟨rfl, rfl⟩
  | cons c r ih =>
    have hc : c ≠ c!"\n" := fun hc => h (by simp [hc])
    have := ih fun hh => h (by simp [hh])
    rw [lineOf, afterLine, if_neg hc, if_neg hc, this.1, this.2]
    exact ⟨rfl, rfl⟩

/-- **C21 (crash).** If only a part of the new line arrives in the file, no earlier entry is lost or changed, and at most one is added. -/
theorem C21_crash (size : Nat) (hs : 1 < size) (file : Bytes) (hc : Complete file) (e : Entry) (h : Good size e) (l part : Bytes)
    (hl : serialize size e = .ok l) (hp : part <+: l) :
    ∃ log more, read size file = .ok log ∧ read size (file ++ part) = .ok (log ++ more) ∧ more.length ≤ 1 := by
  refine ⟨_, entries size part, read_eq _ _, by rw [read_eq, entries_append _ _ _ hc], ?_⟩
  obtain ⟨b, r, h1, h2, h3⟩ := serialize_shape h
  rw [h1] at hl
  cases Res.ok.inj hl
  obtain ⟨t, ht⟩ := hp
  by_cases hn : c!"\n" ∈ part
  · obtain ⟨x, y, rfl, hx⟩ := List.eq_append_cons_of_mem hn
    have e1 : x ++ c!"\n" :: y = x ++ b!"\n" ++ y := by simp
    rw [e1, entries_line _ _ _ hx, List.length_append]
    have hy : y.length ≤ 2 := by
      have hxb : x.length = b.length := by
        have hi := congrArg (List.takeWhile (· ≠ c!"\n")) ht
        have stop : ∀ (u v : Bytes), c!"\n" ∉ u → (u ++ c!"\n" :: v).takeWhile (· ≠ c!"\n") = u := by
          intro u v hu
          refine takeWhile_append_stop _ _ _ (fun c hc => ?_) (fun c hc => ?_)
          · rw [decide_eq_true_eq]; rintro rfl; exact hu hc
          · cases hc; rfl
        rw [List.append_assoc, List.cons_append, stop _ _ hx, List.append_assoc] at hi
        have h5 := stop b r h2
        simp only [List.cons_append, List.nil_append] at hi h5
        rw [h5] at hi
        rw [hi]
      have := congrArg List.length ht
      simp at this
      omega
    rw [entries_short size _ y (Nat.le_refl _) (by omega)]
    have := lineEntry_le size (x ++ b!"\n")
    simpa using this
  · by_cases hp : part = []
    · subst hp; rw [entries_nil]; simp
    · obtain ⟨g1, g2⟩ := lineOf_plain hn
      rw [entries, dif_neg hp, g1, g2, entries_nil, List.append_nil]
      exact lineEntry_le _ _


/-! ### writing what was read -/

theorem parsed_committer {S : Bytes} {s : Signature} (h : Sig.parse S [] 0 = .ok (s, [])) (h0 : 0 ∉ S) (h1 : c!"\t" ∉ S) (h2 : c!"\n" ∉ S) :
    Sig.Spec.StripsTo s.name s.name ∧ Sig.Spec.StripsTo s.email s.email ∧ Sig.Spec.OneLine s.name ∧ Sig.Spec.OneLine s.email ∧ c!"<" ∉ s.email ∧
      c!"\t" ∉ s.name ∧ c!"\t" ∉ s.email := by
  have hp : Sig.parse (S ++ b!"\n") [] c!"\n" = .ok (s, []) := by
    rw [parse_null] at h
    obtain ⟨s', hs, he⟩ := Sig.bind_inv h
    have he := (Prod.mk.inj (Res.ok.inj he)).1
    subst he
    unfold Sig.parse
    have hall : ∀ x ∈ S, decide (x ≠ c!"\n") = true := by
      intro x hx
      rw [decide_eq_true_eq]
      rintro rfl
      exact h2 hx
    have hstop : ∀ x, (b!"\n").head? = some x → decide (x ≠ c!"\n") = false := by
      intro x hx; cases hx; rfl
    rw [if_neg (by simp)]
    simp only [if_pos (show (c!"\n" : UInt8) ≠ 0 by decide)]
    rw [takeWhile_append_stop _ _ _ hall hstop, dropWhile_append_stop _ _ _ hall hstop, if_neg (by simp)]
    rw [List.length_nil, List.drop_zero, hs]
    rfl
  obtain ⟨⟨text, e1, e2, e3, e4⟩, g1, g2, g3, g4⟩ := Sig.C12_parsed hp
  have g5 := g4 (by
    intro hm
    rcases List.mem_append.mp hm with hm | hm
    · exact h0 hm
    · exact absurd hm (by decide))
  have ht : text = S := by
    rw [List.nil_append] at e1
    have : S ++ [c!"\n"] = text ++ [c!"\n"] := e1
    exact (List.append_inj_left' this rfl).symm
  subst ht
  exact ⟨g5.1, g5.2, g1, g2, g3, fun h => h1 (e3 _ h), fun h => h1 (e4 _ h)⟩

/-- the time can be written, and the message does not end with white space -/
structure Tidy (e : Entry) : Prop where
  time : 0 ≤ e.committer.time ∧ e.committer.time < 2 ^ 32
  offset : e.committer.offset.natAbs < 900
  sign : (e.committer.sign = c!"-" ∧ e.committer.offset ≤ 0) ∨ (e.committer.sign = c!"+" ∧ 0 ≤ e.committer.offset)
  msg : ∀ m, e.msg = some m → ∃ r c, m = r ++ [c] ∧ ¬ Space c

theorem cstr_mem {s : Bytes} {c : UInt8} (h : c ∈ cstr s) : c ∈ s ∧ c ≠ 0 := by
  refine ⟨Sig.mem_cstr h, ?_⟩
  have := takeWhile_all _ _ c h
  simpa using this

theorem parsed_good {size : Nat} (hs : 0 < size) {b : Bytes} {e : Entry} (h0 : 0 ∉ b) (hb : c!"\n" ∉ b) (h : parseEntry size (b ++ b!"\n") = .ok e ∨ parseEntry size b = .ok e) (ht : Tidy e) :
    Good size e ∧ ∀ m, e.msg = some m → c!"\n" ∉ m := by
  have main : ∀ line, line = b ++ b!"\n" ∨ line = b → parseEntry size line = .ok e → Good size e ∧ ∀ m, e.msg = some m → c!"\n" ∉ m := by
    intro line hline h
    obtain ⟨o, n, S, T, e1, h1, h2, h3, h4, h5, h6, h7, h8⟩ := (C21_line size hs line e).mp h
    have h0' : 0 ∉ line := by
      rcases hline with rfl | rfl
      · intro hm
        rcases List.mem_append.mp hm with hm | hm
        · exact h0 hm
        · exact absurd hm (by decide)
      · exact h0
    have hlen : ∀ (t id : Bytes), t.length = 2 * size → t.mapM hexVal = some (nibbles id) → id.length = size := by
      intro t id ht hm
      have : ∀ (t : Bytes) (v : List UInt8), t.mapM hexVal = some v → v.length = t.length := by
        intro t
        induction t with
        | nil => intro v hv; cases hv; rfl
        | cons x xs ih =>
          intro v hv
          rw [List.mapM_cons] at hv
          cases hx : hexVal x with
          | none => rw [hx] at hv; cases hv
          | some y =>
            cases hxs : xs.mapM hexVal with
            | none => rw [hx, hxs] at hv; cases hv
            | some ys =>
              rw [hx, hxs] at hv
              cases hv
              simp [ih _ hxs]
      have := this _ _ hm
      rw [Oid.length_nibbles] at this
      omega
    have hS : 0 ∉ S := fun hm => h0' (by rw [e1]; simp [hm])
    obtain ⟨g1, g2, g3, g4, g5, g6, g7⟩ := parsed_committer h7 hS h5 h6
    have hbar : ∀ m, e.msg = some m → c!"\n" ∉ m := by
      intro m hm hc
      rcases h8 with ⟨r, rfl, ⟨m', rfl, h8⟩ | ⟨hl, h8⟩⟩ | ⟨_, h8⟩
      · rw [h8] at hm; cases hm
        have hm' := (cstr_mem hc).1
        rcases hline with rfl | rfl
        · have e2 : b ++ b!"\n" = (o ++ b!" " ++ n ++ S ++ (b!"\t" ++ m')) ++ b!"\n" := by rw [e1]; simp
          have e3 := List.append_inj_left' e2 rfl
          exact hb (by rw [e3]; simp [hm'])
        · exact hb (by rw [e1]; simp)
      · rw [h8] at hm; cases hm
        have hm' := (cstr_mem hc).1
        rcases hline with rfl | rfl
        · have e2 := congrArg List.getLast? e1
          have hr : r ≠ [] := by rintro rfl; cases hm'
          rw [List.getLast?_concat, ← List.append_assoc, List.getLast?_append] at e2
          cases hg : r.getLast? with
          | none => exact hr (List.getLast?_eq_none_iff.mp hg)
          | some v =>
            rw [hg] at e2
            exact hl (by rw [hg]; exact e2.symm)
        · exact hb (by rw [e1]; simp [hm'])
      · rw [h8] at hm; cases hm
    refine ⟨⟨hlen _ _ h1 h2, hlen _ _ h3 h4, ⟨⟨g1, g2, ⟨g3, g4⟩, g5, ht.time, ht.offset, ?_⟩, g6, g7⟩, ?_⟩, hbar⟩
    · intro hsg
      rcases ht.sign with h | h
      · exact h.2
      · rw [h.1] at hsg; exact absurd hsg (by decide)
    · intro m hm hz
      rcases h8 with ⟨r, rfl, ⟨m', rfl, h8⟩ | ⟨hl, h8⟩⟩ | ⟨_, h8⟩
      · rw [h8] at hm; cases hm; exact (cstr_mem hz).2 rfl
      · rw [h8] at hm; cases hm; exact (cstr_mem hz).2 rfl
      · rw [h8] at hm; cases hm
  rcases h with h | h
  · exact main _ (.inl rfl) h
  · exact main _ (.inr rfl) h

theorem entries_good {size : Nat} (hs : 0 < size) : ∀ (n : Nat) (file : Bytes), file.length ≤ n → 0 ∉ file → ∀ e ∈ entries size file, Tidy e →
    Good size e ∧ ∀ m, e.msg = some m → c!"\n" ∉ m := by
  intro n
  induction n with
  | zero =>
    intro file h _ e he
    have : file = [] := List.length_eq_zero_iff.mp (by omega)
    subst this
    rw [entries_nil] at he
    cases he
  | succ n ih =>
    intro file h h0 e he ht
    by_cases hf : file = []
    · subst hf; rw [entries_nil] at he; cases he
    · rw [entries, dif_neg hf] at he
      have happ := ConfigFile.line_append file
      rcases List.mem_append.mp he with he | he
      · obtain ⟨b, hb, hcase⟩ := ConfigFile.line_cases file hf
        have hp : parseEntry size (lineOf file) = .ok e := by
          unfold lineEntry at he
          split at he
          · rename_i e' hp
            simp at he
            rw [hp, he]
          · cases he
        have hb' : c!"\n" ∉ b := fun hm => hb _ hm rfl
        have h0' : 0 ∉ lineOf file := fun hm => h0 (by rw [← happ]; exact List.mem_append_left _ hm)
        rcases hcase with hl | ⟨hl, _, _⟩
        · exact parsed_good hs (fun hm => h0' (by rw [hl]; exact List.mem_append_left _ hm)) hb' (.inl (by rw [← hp, hl])) ht
        · exact parsed_good hs (fun hm => h0' (by rw [hl]; exact hm)) hb' (.inr (by rw [← hp, hl])) ht
      · have := after_length hf
        exact ih _ (by omega) (fun hm => h0 (by rw [← happ]; exact List.mem_append_right _ hm)) e he ht

/-- **C21 (rewriting).** Reading a log and writing it (after removing any of its entries) keeps the entries as they were, if they are tidy: all those
libgit2 writes from commits with times of 32 bits are. -/
theorem C21_rewrite (size : Nat) (hs : 1 < size) (file : Bytes) (h0 : 0 ∉ file) (log kept : Log) (hr : read size file = .ok log) (hk : kept.Sublist log)
    (ht : ∀ e ∈ kept, Tidy e) : ∃ file', write size kept = .ok file' ∧ read size file' = .ok kept := by
  rw [read_eq] at hr
  cases Res.ok.inj hr
  have hg : ∀ e ∈ kept, Good size e ∧ ∀ m, e.msg = some m → c!"\n" ∉ m :=
    fun e he => entries_good (by omega) _ file (Nat.le_refl _) h0 e (hk.subset he) (ht e he)
  obtain ⟨file', back, h1, _, h3, h4⟩ := C21_roundtrip size hs kept fun e he => (hg e he).1
  refine ⟨file', h1, ?_⟩
  rw [h3]
  congr 1
  clear h1 h3 hr hk
  induction h4 with
  | nil => rfl
  | @cons e k es ks hek _ ih =>
    congr 1
    · have g := hg e (by simp)
      have t := ht e (by simp)
      have hsign : Sig.written e.committer = e.committer.sign := by
        unfold Sig.written
        rcases t.sign with h | h
        · rw [if_pos (.inr h.1), h.1]
        · rw [if_neg, h.1]
          rintro (h' | h')
          · omega
          · rw [h.1] at h'; exact absurd h' (by decide)
      have hmsg : k.msg = e.msg := by
        have hkept := hek.msg
        cases hm : e.msg with
        | none => rw [hm] at hkept; exact hkept
        | some m =>
          rw [hm] at hkept
          obtain ⟨r, c, hrc, hc⟩ := t.msg m hm
          have hn := g.2 m hm
          rcases hkept with ⟨a, x, hax, _⟩ | ⟨_, t', ht', hk'⟩
          · exact absurd (by rw [hax]; simp) hn
          · rw [oneLine_id hn] at ht'
            obtain ⟨ws, w1, w2, w3⟩ := ht'
            have hws : ws = [] := by
              rcases List.eq_nil_or_concat ws with h | ⟨ws', d, h⟩
              · exact h
              · exfalso
                subst h
                rw [hrc, List.concat_eq_append, ← List.append_assoc] at w1
                have := List.append_inj_right' w1 rfl
                have hcd : c = d := by simpa using this
                exact hc (hcd ▸ w2 d (by simp))
            subst hws
            rw [List.append_nil] at w1
            subst w1
            rw [hk', if_neg (by rw [hrc]; simp)]
      have hold := hek.old
      have hnew := hek.new
      have hcom := hek.committer
      cases k with
      | mk a b c d =>
        dsimp only at hold hnew hcom hmsg
        subst hold hnew hmsg
        rw [hcom, hsign]
    · exact ih (fun e he => ht e (by simp [he])) fun e he => hg e (by simp [he])

/-! ### in memory -/

theorem byindex_eq (log : Log) (i : Nat) : byindex log i = log.reverse[i]? := by
  unfold byindex inverseIndex
  by_cases h : log.length ≤ i
  · rw [if_pos h, List.getElem?_eq_none (by simpa using h)]
  · rw [if_neg h, List.getElem?_reverse (by omega)]

/-- **C21 (append).** Appending makes the new entry the one at index zero, with the new id of the entry that was there, or no id, as its old id; all
other entries are kept, one index further. -/
theorem C21_append (size : Nat) (log : Log) (newId : Bytes) (who : Signature) (msg : Option Bytes) :
    (∃ e, byindex (append size log newId who msg) 0 = some e ∧ e.newId = newId ∧ e.committer = who ∧ e.msg = msg.map OneLine ∧
      (entrycount log = 0 → e.oldId = List.replicate size 0) ∧ ∀ p, byindex log 0 = some p → e.oldId = p.newId) ∧
    (∀ i, byindex (append size log newId who msg) (i + 1) = byindex log i) ∧
    entrycount (append size log newId who msg) = entrycount log + 1 := by
  refine ⟨?_, fun i => ?_, by simp [append, entrycount]⟩
  · refine ⟨_, by rw [byindex_eq, append, List.reverse_append]; rfl, rfl, rfl, rfl, fun h => ?_, fun p hp => ?_⟩
    · have : log = [] := List.length_eq_zero_iff.mp h
      subst this
      rfl
    · simp only [hp]
  · rw [byindex_eq, byindex_eq, append, List.reverse_append]
    rfl

theorem reverse_eraseIdx (log : Log) (i : Nat) (h : i < log.length) : (log.eraseIdx (log.length - 1 - i)).reverse = log.reverse.eraseIdx i := by
  apply List.ext_getElem?
  intro j
  rw [List.getElem?_eraseIdx]
  have hl : (log.eraseIdx (log.length - 1 - i)).length = log.length - 1 := List.length_eraseIdx_of_lt (by omega)
  by_cases hj : j < log.length - 1
  · rw [List.getElem?_reverse (by omega), hl, List.getElem?_eraseIdx]
    by_cases h1 : j < i
    · rw [if_pos h1, if_neg (by omega), List.getElem?_reverse (by omega)]
      congr 1; omega
    · rw [if_neg h1, if_pos (by omega), List.getElem?_reverse (by omega)]
      congr 1; omega
  · rw [List.getElem?_eq_none (by simp [hl]; omega)]
    by_cases h1 : j < i
    · omega
    · rw [if_neg h1, List.getElem?_eq_none (by simp; omega)]

theorem byindex_setOld (log : Log) (i j : Nat) (o : Bytes) (h : i < log.length) :
    byindex (setOld log i o) j = if j = i then (byindex log j).map (fun e => { e with oldId := o }) else byindex log j := by
  unfold byindex setOld inverseIndex
  rw [List.length_modify]
  by_cases hj : log.length ≤ j
  · rw [if_pos hj, if_neg (by omega), if_pos hj]
  · rw [if_neg hj, if_neg hj]
    by_cases hi : j = i
    · subst hi
      simp
    · rw [if_neg hi, List.getElem?_modify_ne _ _ (by omega)]

theorem byindex_some {log : Log} {i : Nat} (h : i < log.length) : ∃ e, byindex log i = some e := by
  rw [byindex_eq]
  exact ⟨_, List.getElem?_eq_getElem (by simpa using h)⟩

theorem byindex_none {log : Log} {i : Nat} : byindex log i = none ↔ log.length ≤ i := by
  rw [byindex_eq, List.getElem?_eq_none_iff, List.length_reverse]

/-- the old id that belongs to the entry at an index: the new id of the entry before it in time, or none -/
def Before (size : Nat) (log : Log) (i : Nat) : Bytes :=
  match byindex log (i + 1) with
  | none => List.replicate size 0
  | some p => p.newId

theorem drop_eq (size : Nat) (log : Log) (idx : Nat) (rw_ : Bool) (h : idx < log.length) :
    ∃ log', drop size log idx rw_ = .ok log' ∧ log'.length + 1 = log.length ∧
      ∀ j, byindex log' j =
        if rw_ = true ∧ j + 1 = idx then (byindex log j).map (fun e => { e with oldId := Before size log idx })
        else byindex log (if j < idx then j else j + 1) := by
  have hlen : (log.eraseIdx (inverseIndex idx log.length)).length + 1 = log.length := by
    rw [List.length_eraseIdx_of_lt (by unfold inverseIndex; omega)]; omega
  have hget : ∀ j, byindex (log.eraseIdx (inverseIndex idx log.length)) j = byindex log (if j < idx then j else j + 1) := by
    intro j
    rw [byindex_eq, byindex_eq, inverseIndex, reverse_eraseIdx _ _ h, List.getElem?_eraseIdx]
    split <;> rfl
  obtain ⟨e, he⟩ := byindex_some h
  unfold drop entrycount
  rw [he]
  dsimp only
  generalize log.eraseIdx (inverseIndex idx log.length) = log2 at *
  by_cases hr : rw_ = true
  rotate_left
  · refine ⟨log2, by rw [if_pos (by simpa using hr)], hlen, fun j => ?_⟩
    rw [if_neg (fun h => hr h.1)]
    exact hget j
  · rw [if_neg (by simp [hr])]
    by_cases h0 : idx = 0
    · refine ⟨log2, by rw [if_pos h0], hlen, fun j => ?_⟩
      rw [if_neg (by omega)]
      exact hget j
    · have h1 : log.length ≠ 1 := by omega
      obtain ⟨e1, he1⟩ := byindex_some (log := log2) (i := idx - 1) (by omega)
      rw [if_neg h0, if_neg h1, he1]
      dsimp only
      have fin : ∀ o, o = Before size log idx → ∃ log', Res.ok (setOld log2 (idx - 1) o) = .ok log' ∧ log'.length + 1 = log.length ∧
          ∀ j, byindex log' j =
            if rw_ = true ∧ j + 1 = idx then (byindex log j).map (fun e => { e with oldId := Before size log idx })
            else byindex log (if j < idx then j else j + 1) := by
        rintro o rfl
        refine ⟨_, rfl, by rw [setOld, List.length_modify]; exact hlen, fun j => ?_⟩
        rw [byindex_setOld _ _ _ _ (by omega), hget j]
        by_cases hj : j = idx - 1
        · rw [if_pos hj, if_pos (show j < idx by omega), if_pos ⟨hr, by omega⟩]
        · rw [if_neg hj, if_neg (c := rw_ = true ∧ j + 1 = idx) (by rintro ⟨_, _⟩; omega)]
      by_cases hl : idx = log.length - 1
      · rw [if_pos hl]
        refine fin _ ?_
        unfold Before
        rw [byindex_none.mpr (by omega)]
        rfl
      · rw [if_neg hl]
        obtain ⟨p, hp⟩ := byindex_some (log := log2) (i := idx) (by omega)
        rw [hp]
        dsimp only
        refine fin _ ?_
        unfold Before
        have := hget idx
        rw [if_neg (by omega), hp] at this
        rw [← this]

/-- **C21 (drop).** Dropping removes exactly the entry at the index; if asked to, it makes the next newer entry start from where the next older one
arrived, or from no object if there is none. An index that is not in the log is refused. -/
theorem C21_drop (size : Nat) (log : Log) (idx : Nat) (rewrite : Bool) :
    (entrycount log ≤ idx → drop size log idx rewrite = .err ENOTFOUND) ∧
    (idx < entrycount log → ∃ log', drop size log idx rewrite = .ok log' ∧ entrycount log' + 1 = entrycount log ∧
      (∀ j, idx ≤ j → byindex log' j = byindex log (j + 1)) ∧
      (∀ j, j + 1 < idx → byindex log' j = byindex log j) ∧
      (∀ j e, j + 1 = idx → byindex log j = some e →
        (rewrite = false → byindex log' j = some e) ∧
        (rewrite = true → ∃ o, byindex log' j = some { e with oldId := o } ∧
          (∀ p, byindex log (idx + 1) = some p → o = p.newId) ∧ (idx + 1 = entrycount log → o = List.replicate size 0)))) := by
  constructor
  · intro h
    unfold drop
    rw [byindex_none.mpr h]
  · intro h
    obtain ⟨log', h1, h2, h3⟩ := drop_eq size log idx rewrite h
    refine ⟨log', h1, h2, fun j hj => ?_, fun j hj => ?_, fun j e hj he => ⟨fun hr => ?_, fun hr => ?_⟩⟩
    · rw [h3, if_neg (by rintro ⟨_, _⟩; omega), if_neg (by omega)]
    · rw [h3, if_neg (by rintro ⟨_, _⟩; omega), if_pos (by omega)]
    · rw [h3, if_neg (by simp [hr]), if_pos (by omega), he]
    · refine ⟨Before size log idx, ?_, fun p hp => ?_, fun hc => ?_⟩
      · rw [h3, if_pos ⟨hr, hj⟩, he]; rfl
      · unfold Before; rw [hp]
      · unfold Before; rw [byindex_none.mpr (by rw [entrycount] at hc; omega)]

/-- **C21 (the chain is kept).** In a log in which every entry starts from where the one before it arrived, the first one from no object, this is still so
after an entry is appended and after any entry is dropped with rewriting. -/
theorem C21_linked (size : Nat) (log : Log) (h : Linked size log) :
    (∀ newId who msg, Linked size (append size log newId who msg)) ∧ (∀ idx log', drop size log idx true = .ok log' → Linked size log') := by
  constructor
  · intro newId who msg i e he
    obtain ⟨⟨e0, h1, h2, h3, h4, h5, h6⟩, h7, h8⟩ := C21_append size log newId who msg
    cases i with
    | zero =>
      rw [h1] at he
      cases he
      rw [h7]
      cases hb : byindex log 0 with
      | none => exact h5 (by have := byindex_none.mp hb; rw [entrycount]; omega)
      | some p => exact h6 p hb
    | succ i =>
      rw [h7] at he ⊢
      exact h i e he
  · intro idx log' hd j e he
    by_cases hi : idx < log.length
    · obtain ⟨l, h1, h2, h3⟩ := drop_eq size log idx true hi
      rw [h1] at hd
      cases Res.ok.inj hd
      rw [h3] at he
      rw [h3]
      by_cases hj : j + 1 = idx
      · rw [if_pos ⟨rfl, hj⟩] at he
        rw [if_neg (by rintro ⟨_, _⟩; omega), if_neg (by omega), hj]
        obtain ⟨e0, _, rfl⟩ := Option.map_eq_some_iff.mp he
        rfl
      · rw [if_neg (fun h => hj h.2)] at he
        by_cases hj2 : j + 2 = idx
        · rw [if_pos (by omega)] at he
          rw [if_pos ⟨rfl, hj2⟩]
          have := h j e he
          rw [this]
          cases byindex log (j + 1) <;> rfl
        · rw [if_neg (fun h => hj2 h.2)]
          by_cases hlt : j < idx
          · rw [if_pos hlt] at he
            rw [if_pos (by omega)]
            exact h j e he
          · rw [if_neg hlt] at he
            rw [if_neg (by omega)]
            exact h (j + 1) e he
    · rw [(C21_drop size log idx true).1 (by rw [entrycount]; omega)] at hd
      cases hd

/-! ### what is lost -/

/-- the committer of the examples -/
def who (name : Bytes) : Signature := { name := name, email := b!"a@b", time := 1500000000, offset := 90, sign := c!"+" }

def id2 (a : UInt8) : Bytes := [a, a + 1]

def entry (a b : UInt8) (name : Bytes) (msg : Option Bytes) : Entry := { oldId := id2 a, newId := id2 b, committer := who name, msg := msg }

theorem good_who : Committer (who b!"Al B") := by
  refine ⟨⟨⟨[], [], rfl, by simp, by simp, ?_, ?_⟩, ⟨[], [], rfl, by simp, by simp, ?_, ?_⟩, by decide, by decide, by decide, by decide, fun h => absurd h (by decide)⟩,
    by decide, by decide⟩
  all_goals
    intro c hc
    cases hc
    decide

/-- the examples use ids of two bytes; the entries can be written -/
theorem good_entry (a b : UInt8) (msg : Option Bytes) (h : ∀ m, msg = some m → 0 ∉ m) : Good 2 (entry a b b!"Al B" msg) := ⟨rfl, rfl, good_who, h⟩

/-- The last character of a message is lost if a newline is before it: the writer leaves the last two characters as they are. -/
theorem C21_newline_lost : ∃ file, appendFile 2 [] (entry 0 5 b!"Al B" (some b!"one\ntwo\nX")) = .ok file ∧
    ∃ e, read 2 file = .ok [e] ∧ e.msg = some b!"one two" := by
  obtain ⟨file', log, k, h1, _, h3, h4, h5⟩ := C21_update 2 (by omega) [] (.inl rfl) _ (good_entry 0 5 (some b!"one\ntwo\nX") (by
    intro m hm; cases hm; decide))
  refine ⟨file', h1, k, ?_, ?_⟩
  · have : log = [] := (Res.ok.inj h3).symm
    rw [h4, this]; rfl
  · rcases h5.msg with ⟨a, x, e1, _, e3⟩ | ⟨e1, _⟩
    · have e2 : b!"one\ntwo" ++ [c!"\n", c!"X"] = a ++ [c!"\n", x] := e1
      have := List.append_inj_left' e2 rfl
      rw [e3, ← this]
      decide
    · exact absurd (e1 b!"one\ntwo" c!"X" rfl) (by decide)

/-- A committer with a tab in the name makes an entry that is not read: it is written, but the next read of the log does not have it. -/
theorem C21_tab_lost : ∃ file, appendFile 2 [] (entry 0 5 b!"Al\tB" (some b!"msg")) = .ok file ∧ read 2 file = .ok [] :=
  ⟨_, rfl, by decide +kernel⟩

/-- An update after an unfinished line is lost: the new line is appended to what is there. -/
theorem C21_torn : ∃ file, appendFile 2 b!"0001 0506 Al" (entry 5 7 b!"Al B" (some b!"msg")) = .ok file ∧ ∃ e, read 2 file = .ok [e] ∧ e.newId = id2 5 :=
  ⟨b!"0001 0506 Al0506 0708 Al B <a@b> 1500000000 +0130\tmsg\n", by decide +kernel,
    { oldId := [0, 1], newId := id2 5, committer := who b!"Al0506 0708 Al B", msg := some b!"msg" }, by decide +kernel, rfl⟩

/-! ### the hypotheses are met -/

def two : Log := append 2 (append 2 [] (id2 5) (who b!"Al B") none) (id2 7) (who b!"Al B") (some b!"commit: x\ny z")

example : Linked 2 two := (C21_linked 2 _ ((C21_linked 2 [] fun i e h => by simp [byindex] at h).1 _ _ _)).1 _ _ _

example : two = [{ oldId := [0, 0], newId := id2 5, committer := who b!"Al B", msg := none }, entry 5 7 b!"Al B" (some b!"commit: x y z")] := by decide

example : ∀ e ∈ two, Good 2 e := by
  intro e he
  have h := good_entry 5 7 (some b!"commit: x y z") (by intro m hm; cases hm; decide)
  have g := good_entry 5 5 none (by intro m hm; cases hm)
  rcases List.mem_cons.mp he with rfl | he
  · exact ⟨rfl, rfl, g.committer, by intro m hm; cases hm⟩
  · rcases List.mem_cons.mp he with rfl | he
    · exact ⟨rfl, rfl, g.committer, by intro m hm; cases hm; decide⟩
    · cases he

/-- the file of the two entries -/
def twoFile : Bytes := b!"0000 0506 Al B <a@b> 1500000000 +0130\n0506 0708 Al B <a@b> 1500000000 +0130\tcommit: x y z\n"

example : write 2 two = .ok twoFile := by decide +kernel
example : read 2 twoFile = .ok two := by decide +kernel
example : drop 2 two 1 true = .ok [entry 0 7 b!"Al B" (some b!"commit: x y z")] → False := by decide
example : drop 2 two 1 true = .ok [{ entry 0 7 b!"Al B" (some b!"commit: x y z") with oldId := [0, 0] }] := by decide
example : drop 2 two 2 true = .err ENOTFOUND := by decide
example : ∀ e ∈ two, Tidy e := by
  intro e he
  rcases List.mem_cons.mp he with rfl | he
  · exact ⟨by decide, by decide, .inr (by decide), by intro m hm; cases hm⟩
  · rcases List.mem_cons.mp he with rfl | he
    · exact ⟨by decide, by decide, .inr (by decide), by intro m hm; cases hm; exact ⟨b!"commit: x y ", c!"z", rfl, by decide⟩⟩
    · cases he
/-- a blank line and a line that is not an entry are skipped -/
example : read 2 (b!"\nnonsense\n" ++ twoFile) = .ok two := by decide +kernel

end Verif.Reflog
