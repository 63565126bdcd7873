import Verif.Reflog.Spec
import Verif.Oid.Props
import Verif.Quote.Props
import Verif.ConfigFile.Lemmas
namespace Verif.Reflog
open Spec
open Sig (Signature cstr)
open ConfigFile (lineOf afterLine)
open Quote (rtrim)
open Quote.Spec (Space)
open Oid.Spec (hex hexVal nibbles)

/-! ### trimming -/

theorem rtrim_nil : rtrim [] = [] := rfl

theorem rtrim_append (P m : Bytes) (p : UInt8) (hp : ¬ Space p) :
    rtrim (P ++ [p] ++ m) = P ++ [p] ++ rtrim m := by
  induction m using list_snoc_induction with
  | hnil => rw [List.append_nil, Quote.rtrim_snoc, if_neg hp, rtrim_nil, List.append_nil]
  | hsnoc m c ih =>
    rw [← List.append_assoc, Quote.rtrim_snoc, Quote.rtrim_snoc]
    by_cases h : Space c
    · rw [if_pos h, if_pos h, ih]
    · rw [if_neg h, if_neg h, List.append_assoc]

theorem rtrim_cons_space (c : UInt8) (m : Bytes) (hc : Space c) : rtrim (c :: m) = if rtrim m = [] then [] else c :: rtrim m := by
  induction m using list_snoc_induction with
  | hnil =>
    rw [show [c] = [] ++ [c] from rfl, Quote.rtrim_snoc, if_pos hc]
    rfl
  | hsnoc m d ih =>
    rw [← List.cons_append, Quote.rtrim_snoc, Quote.rtrim_snoc]
    by_cases h : Space d
    · rw [if_pos h, if_pos h, ih]
    · rw [if_neg h, if_neg h, if_neg (by simp)]
      rfl

theorem oneLine_append (a b : Bytes) : OneLine (a ++ b) = OneLine a ++ OneLine b := by simp [OneLine]

theorem oneLine_id {a : Bytes} (h : c!"\n" ∉ a) : OneLine a = a := by
  unfold OneLine
  conv => rhs; rw [← List.map_id a]
  refine List.map_congr_left fun c hc => ?_
  rw [if_neg]
  · rfl
  · rintro rfl; exact h hc

theorem oneLine_mem {a : Bytes} : c!"\n" ∉ OneLine a := by
  unfold OneLine
  intro h
  obtain ⟨c, _, h⟩ := List.mem_map.mp h
  split at h
  · exact absurd h (by decide)
  · rename_i hc; exact hc h

theorem oneLine_nul {a : Bytes} (h : 0 ∉ a) : 0 ∉ OneLine a := by
  unfold OneLine
  intro hh
  obtain ⟨c, hc, he⟩ := List.mem_map.mp hh
  split at he
  · exact absurd he (by decide)
  · subst he; exact h hc

theorem spaces_eq (P m : Bytes) (hP : c!"\n" ∉ P) :
    ∃ m', spacesBelow ((P ++ b!"\t" ++ m).length - 2) (P ++ b!"\t" ++ m) = P ++ b!"\t" ++ m' ∧
      ((∃ a x, m = a ++ [c!"\n", x] ∧ ¬ Space x ∧ m' = OneLine a ++ [c!"\n", x]) ∨
       ((∀ a x, m = a ++ [c!"\n", x] → Space x) ∧ rtrim m' = rtrim (OneLine m))) := by
  have hP' : c!"\n" ∉ P ++ b!"\t" := by
    intro h
    rcases List.mem_append.mp h with h | h
    · exact hP h
    · exact absurd h (by decide)
  have key : ∀ (a v : Bytes), m = a ++ v → v.length = 2 ∨ (a = [] ∧ v.length ≤ 2) →
      spacesBelow ((P ++ b!"\t" ++ m).length - 2) (P ++ b!"\t" ++ m) = P ++ b!"\t" ++ (OneLine a ++ v) := by
    intro a v hm hv
    subst hm
    unfold spacesBelow
    rcases hv with hv | ⟨rfl, hv⟩
    · have e : (P ++ b!"\t" ++ (a ++ v)).length - 2 = (P ++ b!"\t" ++ a).length := by
        simp only [List.length_append]; omega
      rw [e, ← List.append_assoc, List.take_left' rfl, List.drop_left' rfl]
      show OneLine (P ++ b!"\t" ++ a) ++ v = _
      rw [oneLine_append, oneLine_id hP', List.append_assoc, List.append_assoc]
    · rw [List.nil_append]
      have hle : (P ++ b!"\t" ++ v).length - 2 ≤ (P ++ b!"\t").length := by
        simp only [List.length_append]; omega
      rw [List.take_append_of_le_length hle]
      show OneLine _ ++ _ = _
      rw [oneLine_id fun h => hP' (List.mem_of_mem_take h)]
      rw [← List.take_append_of_le_length (l₂ := v) hle, List.take_append_drop]
      rfl
  match hr : m.reverse with
  | [] =>
    have hm : m = [] := by simpa using hr
    refine ⟨[], ?_, .inr ⟨fun a x h => ?_, ?_⟩⟩
    · simpa [OneLine] using key [] m (by simp) (.inr ⟨rfl, by simp [hm]⟩) |>.trans (by simp [hm, OneLine])
    · rw [hm] at h; simp at h
    · rw [hm]; rfl
  | [x] =>
    have hm : m = [x] := by have := congrArg List.reverse hr; simpa using this
    refine ⟨m, ?_, .inr ⟨fun a x h => ?_, ?_⟩⟩
    · simpa [OneLine] using key [] m (by simp) (.inr ⟨rfl, by simp [hm]⟩)
    · rw [hm] at h
      have := congrArg List.length h
      simp at this
    · rw [hm]
      by_cases hx : x = c!"\n"
      · subst hx
        decide
      · rw [oneLine_id (by simpa using fun h => hx h.symm)]
  | x :: y :: r =>
    have hm : m = r.reverse ++ [y, x] := by have := congrArg List.reverse hr; simpa using this
    refine ⟨OneLine r.reverse ++ [y, x], key _ _ hm (.inl rfl), ?_⟩
    by_cases hc : y = c!"\n" ∧ ¬ Space x
    · obtain ⟨rfl, hx⟩ := hc
      exact .inl ⟨_, x, hm, hx, rfl⟩
    · refine .inr ⟨fun a z h => ?_, ?_⟩
      · rw [hm] at h
        have h' := congrArg List.reverse h
        simp only [List.reverse_append, List.reverse_cons, List.reverse_nil, List.nil_append, List.cons_append, List.cons.injEq] at h'
        obtain ⟨rfl, rfl, _⟩ := h'
        exact Decidable.byContradiction fun hh => hc ⟨rfl, hh⟩
      · rw [hm, oneLine_append]
        have hsp : Space c!" " := by decide
        have hsn : Space c!"\n" := by decide
        have e1 : ∀ y x : UInt8, OneLine r.reverse ++ [y, x] = OneLine r.reverse ++ [y] ++ [x] := by simp
        rw [e1, show OneLine [y, x] = [if y = c!"\n" then c!" " else y, if x = c!"\n" then c!" " else x] from rfl, e1]
        rw [Quote.rtrim_snoc, Quote.rtrim_snoc, Quote.rtrim_snoc, Quote.rtrim_snoc]
        by_cases hx : Space x
        · have : Space (if x = c!"\n" then c!" " else x) := by split <;> assumption
          rw [if_pos hx, if_pos this]
          by_cases hy : y = c!"\n"
          · rw [if_pos hy, if_pos (hy ▸ hsn), if_pos hsp]
          · rw [if_neg hy]
        · have hxn : x ≠ c!"\n" := fun h => hx (h ▸ hsn)
          have hyn : y ≠ c!"\n" := fun h => hc ⟨h, hx⟩
          rw [if_neg hxn, if_neg hyn]

theorem addMessage_some (P m : Bytes) (p : UInt8) (hp : ¬ Space p) (hP : c!"\n" ∉ P ++ [p]) :
    (∃ a x, m = a ++ [c!"\n", x] ∧ ¬ Space x ∧ addMessage (P ++ [p]) (some m) = P ++ [p] ++ b!"\t" ++ OneLine a ++ [c!"\n", x]) ∨
    ((∀ a x, m = a ++ [c!"\n", x] → Space x) ∧ addMessage (P ++ [p]) (some m) =
      P ++ [p] ++ if rtrim (OneLine m) = [] then [] else b!"\t" ++ rtrim (OneLine m)) := by
  obtain ⟨m', h1, h2⟩ := spaces_eq (P ++ [p]) m hP
  have e : addMessage (P ++ [p]) (some m) = P ++ [p] ++ rtrim (c!"\t" :: m') := by
    unfold addMessage
    dsimp only
    rw [h1, List.append_assoc (P ++ [p]), rtrim_append _ _ _ hp]
    rfl
  rcases h2 with ⟨a, x, h2, h3, rfl⟩ | ⟨h2, h3⟩
  · refine .inl ⟨a, x, h2, h3, ?_⟩
    rw [e]
    have : c!"\t" :: (OneLine a ++ [c!"\n", x]) = (c!"\t" :: OneLine a ++ [c!"\n"]) ++ [x] := by simp
    rw [this, Quote.rtrim_snoc, if_neg h3]
    simp
  · refine .inr ⟨h2, ?_⟩
    rw [e, rtrim_cons_space _ _ (by decide), h3]
    rfl

theorem trimsTo_rtrim (s : Bytes) : TrimsTo s (rtrim s) := Quote.rtrim_split s

/-! ### ids -/

theorem hex_mem {id : Bytes} {c : UInt8} (h : c ∈ hex id) : (hexVal c).isSome = true := by
  obtain ⟨n, hn, rfl⟩ := List.mem_map.mp h
  rw [Oid.hexVal_digit n (Oid.nibbles_lt id n hn)]
  rfl

theorem hex_plain : ∀ c : UInt8, (hexVal c).isSome = true → c ≠ c!"\n" ∧ c ≠ 0 ∧ c ≠ c!" " ∧ c ≠ c!"\t" ∧ ¬ Space c := by decide +kernel

theorem idText_eq (id : Bytes) : idText id.length id = .ok (hex id) := by
  unfold idText
  obtain ⟨out, h1, h2, _⟩ := Oid.C02_tostr id (2 * id.length + 1) (by omega)
  rw [h1, h2, Res.bind_ok]
  congr 1
  rw [Nat.add_sub_cancel, List.take_of_length_le (by simp)]
  unfold cstr
  refine takeWhile_append_stop _ _ _ (fun c hc => ?_) ?_
  · have := (hex_plain c (hex_mem hc)).2.1
    simpa using this
  · intro x hx
    have : (0 : UInt8) = x := Option.some.inj hx
    subst this
    decide

theorem advanceOid_hex (id rest : Bytes) (hid : id ≠ []) : advanceOid id.length (hex id ++ rest) = .ok (id, rest) := by
  unfold advanceOid
  rw [if_neg (by simp)]
  obtain ⟨t, h1, h2, _⟩ := Oid.C02_roundtrip id hid rest
  rw [Oid.C02_fmt] at h1
  have : hex id = t := Res.ok.inj h1
  subst this
  rw [h2, Res.bind_ok, List.drop_left' (by simp)]

/-! ### signatures -/

theorem lastIdx_cons {c x : UInt8} (h : x ≠ c) (l : Bytes) : Sig.lastIdx c (x :: l) = (Sig.lastIdx c l).map (· + 1) := by
  rw [Sig.lastIdx]
  cases Sig.lastIdx c l with
  | some i => rfl
  | none => simp [h]

theorem trimmed_space (l : Bytes) : Sig.trimmed (c!" " :: l) = Sig.trimmed l := by
  unfold Sig.trimmed
  rw [List.dropWhile_cons, if_pos (by decide)]

theorem parseLine_space (l : Bytes) : Sig.parseLine (c!" " :: l) = Sig.parseLine l := by
  unfold Sig.parseLine
  rw [lastIdx_cons (by decide), lastIdx_cons (by decide)]
  cases Sig.lastIdx c!"<" l with
  | none => rfl
  | some s =>
    cases Sig.lastIdx c!">" l with
    | none => rfl
    | some e =>
      dsimp only [Option.map]
      by_cases h : e ≤ s
      · rw [if_pos (by omega), if_pos h]
      · rw [if_neg (by omega), if_neg h]
        simp only [List.drop_succ_cons, List.take_succ_cons, trimmed_space]

theorem parse_null (S : Bytes) : Sig.parse S [] 0 = (Sig.parseLine S >>= fun s => .ok (s, [])) := by
  unfold Sig.parse
  rw [if_neg (by simp)]
  simp

/-- the text of a committer -/
def sigText (s : Signature) : Bytes := s.name ++ c!" " :: c!"<" :: (s.email ++ c!">" :: Sig.timeText s)

theorem timePlain : ∀ c : UInt8, (c = c!" " ∨ c = c!"+" ∨ c = c!"-" ∨ 48 ≤ c ∧ c ≤ 57) → c ≠ c!"\t" := by decide +kernel

theorem sigText_plain {s : Signature} (h : Committer s) : ∀ c ∈ sigText s, c ≠ c!"\t" ∧ c ≠ c!"\n" := by
  intro c hc
  unfold sigText at hc
  simp only [List.mem_append, List.mem_cons] at hc
  rcases hc with hc | hc | hc | hc | hc | hc
  · exact ⟨fun e => h.2.1 (e ▸ hc), fun e => h.1.line.1.1 (e ▸ hc)⟩
  · subst hc; decide
  · subst hc; decide
  · exact ⟨fun e => h.2.2 (e ▸ hc), fun e => h.1.line.2.1 (e ▸ hc)⟩
  · subst hc; decide
  · have := Sig.timeText_mem h.1.offset hc
    exact ⟨timePlain c this, (Sig.timeChar c this).2.2.1⟩

theorem sigText_last {s : Signature} (h : Committer s) : ∃ r p, sigText s = r ++ [p] ∧ ¬ Space p := by
  have : ∃ r p, Sig.timeText s = r ++ [p] ∧ ¬ Space p := by
    unfold Sig.timeText
    have ho := h.1.offset
    rw [Sig.pad2_eq (s.offset.natAbs % 60) (by omega)]
    refine ⟨_ ++ [UInt8.ofNat (48 + s.offset.natAbs % 60 / 10)], UInt8.ofNat (48 + s.offset.natAbs % 60 % 10), (List.append_assoc _ [_] [_]).symm, ?_⟩
    have h10 : ∀ n : Fin 10, ¬ Space (UInt8.ofNat (48 + n.val)) := by decide
    exact h10 ⟨s.offset.natAbs % 60 % 10, by omega⟩
  obtain ⟨r, p, h1, h2⟩ := this
  refine ⟨s.name ++ c!" " :: c!"<" :: (s.email ++ c!">" :: r), p, ?_, h2⟩
  unfold sigText
  rw [h1]
  simp

theorem parse_sigText {s : Signature} (h : Committer s) : Sig.parse (c!" " :: sigText s) [] 0 = .ok ({ s with sign := Sig.written s }, []) := by
  rw [parse_null, parseLine_space]
  unfold sigText
  rw [Sig.parseLine_written h.1]
  rfl

end Verif.Reflog
