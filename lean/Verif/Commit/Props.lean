import Verif.Commit.Props1
namespace Verif.Commit
open Verif.Sig Verif.Sig.Spec Verif.Commit.Spec

/-! ### header fields -/

theorem contains_line (l r : Bytes) : (l ++ c!"\n" :: r).contains c!"\n" = true := by simp

theorem continuation_fwd {conts : List Bytes} (h : ∀ l ∈ conts, c!"\n" ∉ l) {r : Bytes} (hr : r.head? ≠ some c!" ") {n : Nat} (hn : conts.length < n)
    (out : Bytes) : continuation n (unlines (conts.map (c!" " :: ·)) ++ r) out = .ok (out ++ conts.flatMap (c!"\n" :: ·), r) := by
  induction conts generalizing n out with
  | nil =>
    cases n with
    | zero => simp at hn
    | succ n =>
      show continuation (n + 1) r out = _
      cases r with
      | nil => simp [continuation]
      | cons c t =>
        have : c ≠ c!" " := by simpa using hr
        simp [continuation, this]
  | cons l ls ih =>
    cases n with
    | zero => simp at hn
    | succ n =>
      have hl := h l (by simp)
      rw [List.map_cons, unlines_cons, List.cons_append, continuation]
      rw [if_pos rfl, if_pos (contains_line _ _), drop_line hl, take_line hl]
      simp only [List.drop_succ_cons, List.drop_zero]
      rw [ih (fun l' h' => h l' (List.mem_cons_of_mem _ h')) (by simp at hn; omega)]
      simp

theorem isPrefixOf_iff {p l : Bytes} : p.isPrefixOf l = true ↔ p <+: l := List.isPrefixOf_iff_prefix

theorem head_append_sp {x r : Bytes} (hn : c!"\n" ∉ x) : (x ++ c!"\n" :: r).head? = some c!" " ↔ x.head? = some c!" " := by
  cases x with
  | nil => simp
  | cons c x => simp

/-- one line that does not give the field is skipped -/
theorem headerField_skip {field : Bytes} (hf : c!"\n" ∉ field) (hh : field.head? ≠ some c!" ") {l : Bytes} (hl : c!"\n" ∉ l)
    (hno : ¬ (field ++ b!" ") <+: l) (n : Nat) (r : Bytes) : headerField field (n + 1) (l ++ c!"\n" :: r) = headerField field n r := by
  rw [headerField]
  rw [if_neg (by simp)]
  dsimp only
  rw [drop_line hl, isPrefixOf_line hf]
  simp only [List.drop_succ_cons, List.drop_zero]
  by_cases h1 : (l ++ c!"\n" :: r).head? = some c!" "
  · rw [if_pos h1]
  · rw [if_neg h1]
    by_cases h2 : field.isPrefixOf l = true
    · rw [if_neg (by simp [h2])]
      obtain ⟨x, rfl⟩ := isPrefixOf_iff.1 h2
      have e : (field ++ x ++ c!"\n" :: r).drop field.length = x ++ c!"\n" :: r := by simp
      rw [e, if_pos]
      intro h3
      rw [head_append_sp (fun h => hl (by simp [h]))] at h3
      cases x with
      | nil => cases h3
      | cons c x =>
        have : c = c!" " := by simpa using h3
        subst this
        exact hno ⟨x, by simp⟩
    · rw [if_pos (by simp [h2])]

theorem headerField_skips {field : Bytes} (hf : c!"\n" ∉ field) (hh : field.head? ≠ some c!" ") {ls : List Bytes} (h : ∀ l ∈ ls, c!"\n" ∉ l ∧ ¬ (field ++ b!" ") <+: l)
    (n : Nat) (r : Bytes) : headerField field (n + ls.length) (unlines ls ++ r) = headerField field n r := by
  induction ls with
  | nil => rfl
  | cons l ls ih =>
    obtain ⟨h1, h2⟩ := h l (by simp)
    rw [unlines_cons, List.length_cons, ← Nat.add_assoc, headerField_skip hf hh h1 h2]
    exact ih fun l' h' => h l' (List.mem_cons_of_mem _ h')

/-- **C13 (header fields).** `git_commit_header_field` gives the value of the first header with that name, its continuation lines joined by line feeds, and
reports that there is none exactly when no header line has that name. -/
theorem C13_field {field : Bytes} (hf : c!"\n" ∉ field) (h0 : field ≠ []) (hh : field.head? ≠ some c!" ") {ls : List Bytes}
    (h : ∀ l ∈ ls, c!"\n" ∉ l ∧ ¬ (field ++ b!" ") <+: l) :
    (∀ n, ls.length < n → headerField field n (unlines ls) = .err ENOTFOUND) ∧
    (∀ v conts after n, c!"\n" ∉ v → (∀ l ∈ conts, c!"\n" ∉ l) → after.head? ≠ some c!" " → ls.length < n →
      headerField field n (unlines (ls ++ fieldLines field v conts) ++ after) = .ok (fieldValue v conts)) := by
  constructor
  · intro n hn
    obtain ⟨k, rfl⟩ : ∃ k, n = k + 1 + ls.length := ⟨n - ls.length - 1, by omega⟩
    have := headerField_skips hf hh h (k + 1) []
    rw [List.append_nil] at this
    rw [this, headerField]
    simp
  · intro v conts after n hv hc ha hn
    obtain ⟨k, rfl⟩ : ∃ k, n = k + 1 + ls.length := ⟨n - ls.length - 1, by omega⟩
    rw [unlines_append, List.append_assoc, headerField_skips hf hh h, fieldLines, unlines_cons, headerField]
    rw [if_neg (by simp)]
    have hl : c!"\n" ∉ field ++ b!" " ++ v := by
      intro hm
      simp only [List.mem_append, List.mem_singleton] at hm
      rcases hm with (hm | hm) | hm
      · exact hf hm
      · exact absurd hm (by decide)
      · exact hv hm
    dsimp only
    rw [drop_line hl, isPrefixOf_line hf]
    simp only [List.drop_succ_cons, List.drop_zero]
    have e1 : (field ++ b!" " ++ v ++ c!"\n" :: (unlines (conts.map (c!" " :: ·)) ++ after)).head? ≠ some c!" " := by
      cases field with
      | nil => exact absurd rfl h0
      | cons c f => simpa using hh
    have e2 : field.isPrefixOf (field ++ b!" " ++ v) = true := isPrefixOf_iff.2 ⟨b!" " ++ v, by simp⟩
    have e3 : (field ++ b!" " ++ v ++ c!"\n" :: (unlines (conts.map (c!" " :: ·)) ++ after)).drop field.length = c!" " :: (v ++ c!"\n" :: (unlines (conts.map (c!" " :: ·)) ++ after)) := by
      simp
    rw [if_neg e1, if_neg (by simp [e2]), e3, if_neg (by simp)]
    simp only [List.drop_succ_cons, List.drop_zero]
    rw [take_line hv, continuation_fwd hc ha]
    · rfl
    · have := length_unlines (conts.map (c!" " :: ·))
      simp at this ⊢
      omega

/-! ### signatures -/

theorem formatLines_split (s : Bytes) : ∃ v conts, s = fieldValue v conts ∧ c!"\n" ∉ v ∧ (∀ l ∈ conts, c!"\n" ∉ l) ∧
    ∀ r, formatLines s ++ c!"\n" :: r = v ++ c!"\n" :: (unlines (conts.map (c!" " :: ·)) ++ r) := by
  induction s with
  | nil => exact ⟨[], [], rfl, by simp, by simp, by simp [formatLines, unlines]⟩
  | cons c s ih =>
    obtain ⟨v, conts, e, h1, h2, h3⟩ := ih
    rw [formatLines]
    by_cases hc : c = c!"\n"
    · subst hc
      refine ⟨[], v :: conts, by rw [e]; simp [fieldValue], by simp, ?_, ?_⟩
      · intro l hl
        rcases List.mem_cons.mp hl with rfl | hl
        · exact h1
        · exact h2 l hl
      · intro r
        rw [if_pos rfl, List.map_cons, unlines_cons]
        simp only [List.cons_append, h3]
        rfl
    · refine ⟨c :: v, conts, by rw [e]; rfl, ?_, h2, ?_⟩
      · intro hm
        rcases List.mem_cons.mp hm with hm | hm
        · exact hc hm.symm
        · exact h1 hm
      · intro r
        rw [if_neg hc]
        simp only [List.cons_append, h3]

theorem splitHeader_line {l : Bytes} (h : Line l) {r : Bytes} (hr : r.head? ≠ some c!"\n") :
    splitHeader (l ++ c!"\n" :: r) = (splitHeader r).map fun q => (l ++ c!"\n" :: q.1, q.2) := by
  have h2 := h.2
  clear h
  induction l with
  | nil => rw [List.nil_append, splitHeader, if_neg (by simp [hr])]; rfl
  | cons c l ih =>
    have hc : c ≠ c!"\n" := fun e => h2 (by simp [e])
    rw [List.cons_append, splitHeader, if_neg (by simp [hc]), ih (fun h => h2 (by simp [h]))]
    cases splitHeader r <;> simp

theorem unlines_head {ls : List Bytes} (h : ∀ l ∈ ls, Line l) (h0 : ls ≠ []) (r : Bytes) : (unlines ls ++ r).head? ≠ some c!"\n" ∧ (unlines ls ++ r) ≠ [] := by
  cases ls with
  | nil => exact absurd rfl h0
  | cons l ls =>
    rw [unlines_cons]
    obtain ⟨h1, h2⟩ := h l (by simp)
    cases l with
    | nil => exact absurd rfl h1
    | cons c l => exact ⟨by simpa using fun e : c = c!"\n" => h2 (by simp [e]), by simp⟩

theorem splitHeader_lines {ls : List Bytes} (h : ∀ l ∈ ls, Line l) (h0 : ls ≠ []) (m : Bytes) :
    splitHeader (unlines ls ++ c!"\n" :: m) = some (unlines ls, c!"\n" :: m) := by
  induction ls with
  | nil => exact absurd rfl h0
  | cons l ls ih =>
    have hl := h l (by simp)
    rw [unlines_cons]
    by_cases h1 : ls = []
    · subst h1
      simp only [unlines, List.flatMap_nil, List.nil_append, List.flatMap_cons, List.append_nil]
      have h2 := hl.2
      clear h h0 hl ih
      induction l with
      | nil => simp [splitHeader]
      | cons c l ih =>
        have hc : c ≠ c!"\n" := fun e => h2 (by simp [e])
        rw [List.cons_append, splitHeader, if_neg (by simp [hc]), ih (fun h => h2 (by simp [h]))]
        simp
    · have h' : ∀ l ∈ ls, Line l := fun l' hl' => h l' (List.mem_cons_of_mem _ hl')
      rw [splitHeader_line hl (unlines_head h' h1 _).1, ih h' h1]
      have := unlines_cons l ls []
      simp only [List.append_nil] at this
      simp [this]

theorem splitHeader_none {ls : List Bytes} (h : ∀ l ∈ ls, Line l) {last : Bytes} (hl : c!"\n" ∉ last) : splitHeader (unlines ls ++ last) = none := by
  have hlast : splitHeader last = none := by
    induction last with
    | nil => rfl
    | cons c l ih =>
      have hc : c ≠ c!"\n" := fun e => hl (by simp [e])
      rw [splitHeader, if_neg (by simp [hc]), ih (fun h => hl (by simp [h]))]
      rfl
  induction ls with
  | nil => exact hlast
  | cons l ls ih =>
    have h' : ∀ l ∈ ls, Line l := fun l' hl' => h l' (List.mem_cons_of_mem _ hl')
    rw [unlines_cons, splitHeader_line (h l (by simp)), ih h']
    · rfl
    · cases ls with
      | nil =>
        cases last with
        | nil => simp [unlines]
        | cons c l => simpa [unlines] using fun e : c = c!"\n" => hl (by simp [e])
      | cons l' ls' => exact (unlines_head h' (by simp) _).1

theorem isCommit_lines {size : Nat} {data header tree : Bytes} {parents : List Bytes} {author committer : Signature} {more : List Bytes}
    {last : Bytes} {message : Option Bytes} (h : IsCommit size data header tree parents author committer more last message) :
    ∃ ls, ls ≠ [] ∧ (∀ l ∈ ls, Line l) ∧ header = unlines ls ++ last ∧ (∀ m, message = some m → last = []) := by
  obtain ⟨t, ps, a, as, c, hd, ht, hp, ha, has, hc⟩ := h.exists_lines
  refine ⟨[t] ++ ps ++ [a] ++ as ++ [c] ++ more, by simp, ?_, hd, ?_⟩
  · have hid : ∀ hdr id l, hdr ≠ [] → c!"\n" ∉ hdr → IdLine size hdr id l → Line l := by
      intro hdr id l h1 h2 h3
      refine ⟨?_, IdLine.line h3 h2⟩
      obtain ⟨x, rfl, _⟩ := h3
      simp [h1]
    have hsg : ∀ hdr s l, hdr ≠ [] → c!"\n" ∉ hdr → SigLine hdr s l → Line l := by
      intro hdr id l h1 h2 h3
      refine ⟨?_, SigLine.line h3 h2⟩
      obtain ⟨x, rfl, _⟩ := h3
      simp [h1]
    have hps : ∀ l ∈ ps, Line l := by
      clear hd h
      induction hp with
      | nil => simp
      | cons h1 h2 ih =>
        intro l hl
        rcases List.mem_cons.mp hl with rfl | hl
        · exact hid _ _ _ (by decide) (by decide) h1
        · exact ih l hl
    intro l hl
    simp only [List.mem_append, List.mem_singleton] at hl
    rcases hl with ((((rfl | hl) | rfl) | hl) | rfl) | hl
    · exact hid _ _ _ (by decide) (by decide) ht
    · exact hps l hl
    · exact hsg _ _ _ (by decide) (by decide) ha
    · obtain ⟨s, hs⟩ := has l hl
      exact hsg _ _ _ (by decide) (by decide) hs
    · exact hsg _ _ _ (by decide) (by decide) hc
    · exact h.more_lines l hl
  · intro m hm
    exact Decidable.byContradiction fun hl => by rw [h.last_only hl] at hm; cases hm

/-- what `git_commit_create_with_signature` writes -/
theorem withSignature_inv {size : Nat} (hs : 0 < size) {content sig field data : Bytes} (h : withSignature size content (some sig) field = .ok data) :
    ∃ header tree parents author committer more m, IsCommit size content header tree parents author committer more [] (some m) ∧
      content = header ++ c!"\n" :: m ∧ data = header ++ formatHeaderField field sig ++ c!"\n" :: m := by
  unfold withSignature at h
  cases hp : commitParse size content false with
  | ub => rw [hp] at h; cases h
  | err e => rw [hp] at h; cases h
  | ok c =>
    rw [hp] at h
    obtain ⟨header, tree, author, more, last, message, hc⟩ := commitParse_inv hs hp
    obtain ⟨ls, h1, h2, h3, h4⟩ := isCommit_lines hc
    cases message with
    | none =>
      have : content = unlines ls ++ last := by rw [hc.parts, h3]; simp
      rw [this, splitHeader_none h2 hc.last_line] at h
      cases h
    | some m =>
      have hl := h4 m rfl
      subst hl
      rw [List.append_nil] at h3
      have e : content = header ++ c!"\n" :: m := hc.parts
      have e' : content = unlines ls ++ c!"\n" :: m := by rw [e, h3]
      rw [show splitHeader content = some (unlines ls, c!"\n" :: m) by rw [e', splitHeader_lines h2 h1]] at h
      refine ⟨header, tree, _, author, _, more, m, hc, e, ?_⟩
      rw [← Res.ok.inj h, h3]

theorem formatHeaderField_eq (field sig : Bytes) : ∃ v conts, sig = fieldValue v conts ∧ c!"\n" ∉ v ∧ (∀ l ∈ conts, c!"\n" ∉ l) ∧
    formatHeaderField field sig = unlines (fieldLines field v conts) := by
  obtain ⟨v, conts, e, h1, h2, h3⟩ := formatLines_split sig
  refine ⟨v, conts, e, h1, h2, ?_⟩
  have := h3 []
  simp only [List.append_nil] at this
  unfold formatHeaderField fieldLines
  have h4 := unlines_cons (field ++ b!" " ++ v) (conts.map (c!" " :: ·)) []
  simp only [List.append_nil] at h4
  rw [h4, List.append_assoc _ (formatLines sig) b!"\n", this]
  simp

theorem encodingOf_append (a b : List Bytes) (hb : ∀ l ∈ b, (b!"encoding ").isPrefixOf l = false) : encodingOf (a ++ b) = encodingOf a := by
  unfold encodingOf
  rw [List.filter_append, (List.filter_eq_nil_iff (l := b)).mpr (fun l hl => by simp [hb l hl]), List.append_nil]

theorem unlines_eq_nil {ls : List Bytes} (h : unlines ls = []) : ls = [] := by
  cases ls with
  | nil => rfl
  | cons l ls =>
    have := unlines_cons l ls []
    rw [List.append_nil, h] at this
    simp at this

/-- **C13 (a signed commit is the same commit).** Adding a signature (any text) under a field name other than `encoding` to a commit gives a commit with
the same tree, parents, author, committer, encoding and message, in which the field has that signature as its value - if it was not
a field of the commit before. -/
theorem C13_signed_same {size : Nat} (hs : 0 < size) {content sig field data : Bytes} (h : withSignature size content (some sig) field = .ok data)
    (hcs : CString content) (hsg : CString sig) (hfc : CString field) (hf : c!"\n" ∉ field) (h0 : field ≠ []) (hh : field.head? ≠ some c!" ")
    (henc : ¬ b!"encoding " <+: field ++ b!" ") :
    ∃ c c' hdr', commitParse size content false = .ok c ∧ commitParse size data false = .ok c' ∧ c'.tree = c.tree ∧ c'.parents = c.parents ∧
      c'.author = c.author ∧ c'.committer = c.committer ∧ c'.encoding = c.encoding ∧ c'.rawMessage = c.rawMessage ∧ c'.rawHeader = some hdr' ∧
      ((∀ ls m, (∀ l ∈ ls, Line l) → content = unlines ls ++ c!"\n" :: m → ∀ l ∈ ls, ¬ (field ++ b!" ") <+: l) →
        headerField field (hdr'.length + 1) hdr' = .ok sig) := by
  obtain ⟨header, tree, parents, author, committer, more, m, hc, e1, e2⟩ := withSignature_inv hs h
  obtain ⟨v, conts, e3, h1, h2, e4⟩ := formatHeaderField_eq field sig
  have hnl : ∀ l ∈ fieldLines field v conts, Line l := by
    intro l hl
    unfold fieldLines at hl
    rcases List.mem_cons.mp hl with rfl | hl
    · refine ⟨by simp, fun hm => ?_⟩
      simp only [List.mem_append, List.mem_singleton] at hm
      rcases hm with (hm | hm) | hm
      · exact hf hm
      · exact absurd hm (by decide)
      · exact h1 hm
    · obtain ⟨k, hk, rfl⟩ := List.mem_map.mp hl
      refine ⟨by simp, fun hm => ?_⟩
      rcases List.mem_cons.mp hm with hm | hm
      · exact absurd hm (by decide)
      · exact h2 k hk hm
  have hne : ∀ l ∈ fieldLines field v conts, (b!"encoding ").isPrefixOf l = false := by
    intro l hl
    unfold fieldLines at hl
    rcases List.mem_cons.mp hl with rfl | hl
    · refine Bool.eq_false_iff.mpr fun hp => henc ?_
      have hp := isPrefixOf_iff.1 hp
      by_cases hlen : (b!"encoding ").length ≤ (field ++ b!" ").length
      · exact List.prefix_of_prefix_length_le hp (List.prefix_append _ _) hlen
      · exfalso
        have hpre : (field ++ b!" ") <+: b!"encoding " := List.prefix_of_prefix_length_le (List.prefix_append _ v) hp (by omega)
        obtain ⟨t, ht⟩ := hpre
        have : c!" " ∈ (b!"encoding ").take 8 := by
          have hlt : field.length < 8 := by simp at hlen; omega
          have h9 : (b!"encoding ")[field.length]? = some c!" " := by rw [← ht]; simp
          refine List.mem_of_getElem? (i := field.length) ?_
          rw [List.getElem?_take_of_lt hlt, h9]
        exact absurd this (by decide)
    · obtain ⟨k, hk, rfl⟩ := List.mem_map.mp hl
      rfl
  obtain ⟨t, ps, a, as, c, hd, g1, g2, g3, g4, g5⟩ := hc.exists_lines
  have hic : IsCommit size data (header ++ formatHeaderField field sig) tree parents author committer (more ++ fieldLines field v conts) [] (some m) := by
    refine ⟨e2, ⟨t, ps, a, as, c, ?_, g1, g2, g3, g4, g5⟩, ?_, by simp, by simp⟩
    · rw [hd, e4]; simp [unlines]
    · intro l hl
      rcases List.mem_append.mp hl with hl | hl
      · exact hc.more_lines l hl
      · exact hnl l hl
  have hhc : CString header := fun hm => hcs (by rw [e1]; simp [hm])
  have hcf : CString (formatHeaderField field sig) := by
    intro hm
    unfold formatHeaderField at hm
    simp only [List.mem_append, List.mem_singleton] at hm
    have hfl : ∀ s : Bytes, (0 : UInt8) ∉ s → (0 : UInt8) ∉ formatLines s := by
      intro s
      induction s with
      | nil => simp [formatLines]
      | cons c s ih =>
        intro hz
        rw [formatLines]
        have := ih (fun h => hz (by simp [h]))
        have hc0 : c ≠ 0 := fun e => hz (by simp [e])
        split <;> simp [this, Ne.symm hc0]
    rcases hm with ((hm | hm) | hm) | hm
    · exact hfc hm
    · exact absurd hm (by decide)
    · exact hfl sig hsg hm
    · exact absurd hm (by decide)
  refine ⟨_, _, header ++ formatHeaderField field sig, (commitParse_fwd hs hc).1, (commitParse_fwd hs hic).1, rfl, rfl, rfl, rfl, ?_, rfl, ?_, ?_⟩
  · show encodingOf _ = encodingOf _
    rw [encodingOf_append _ _ (by simp), encodingOf_append _ _ hne, encodingOf_append _ _ (by simp)]
  · show some (cstr _) = _
    rw [cstr_id]
    intro hm
    rcases List.mem_append.mp hm with hm | hm
    · exact hhc hm
    · exact hcf hm
  · intro hno
    obtain ⟨ls, k1, k2, k3, _⟩ := isCommit_lines hc
    rw [List.append_nil] at k3
    have hno' := hno ls m k2 (by rw [e1, k3])
    have hf2 := (C13_field hf h0 hh (ls := ls) (fun l hl => ⟨(k2 l hl).2, hno' l hl⟩)).2 v conts [] (unlines (ls ++ fieldLines field v conts)).length.succ h1 h2 (by simp) (by
      have := length_unlines (ls ++ fieldLines field v conts)
      simp at this ⊢; omega)
    rw [List.append_nil] at hf2
    rw [e4, k3, ← unlines_append, hf2, e3]

theorem extract_skips {field : Bytes} (hf : c!"\n" ∉ field) {ls : List Bytes} (h : ∀ l ∈ ls, Line l ∧ ¬ field <+: l)
    (n : Nat) (r : Bytes) (hr : r ≠ []) (signed : Bytes) : extract field (n + ls.length) (unlines ls ++ r) signed = extract field n r (signed ++ unlines ls) := by
  induction ls generalizing signed with
  | nil => simp [unlines]
  | cons l ls ih =>
    obtain ⟨⟨h1, h2⟩, h3⟩ := h l (by simp)
    have hne : unlines ls ++ r ≠ [] := by simp [hr]
    have h3' : field.isPrefixOf l = false := Bool.eq_false_iff.mpr fun hp => h3 (isPrefixOf_iff.1 hp)
    rw [unlines_cons, List.length_cons, ← Nat.add_assoc, extract]
    dsimp only
    rw [drop_line h2, isPrefixOf_line hf, take_line h2]
    simp only [List.drop_succ_cons, List.drop_zero]
    rw [if_neg (by simp [hr]), if_pos (by simp [h3']), ih (fun l' h' => h l' (List.mem_cons_of_mem _ h'))]
    have := unlines_cons l ls []
    simp only [List.append_nil] at this
    rw [this]
    simp

/-- **C13 (a signature can be taken off again).** From a commit created with a signature under a field (no header line of the commit starting with its
name), `git_commit_extract_signature` gives back exactly the signature and exactly the content that was signed. -/
theorem C13_signed {size : Nat} (hs : 0 < size) {content sig field data : Bytes} (h : withSignature size content (some sig) field = .ok data)
    (hcs : CString content) (hsg : CString sig) (hfc : CString field) (hf : c!"\n" ∉ field)
    (hno : ∀ ls m, (∀ l ∈ ls, Line l) → content = unlines ls ++ c!"\n" :: m → ∀ l ∈ ls, ¬ field <+: l) :
    extractSignature data field = .ok (sig, content) := by
  obtain ⟨header, tree, parents, author, committer, more, m, hc, e1, e2⟩ := withSignature_inv hs h
  obtain ⟨v, conts, e3, h1, h2, e4⟩ := formatHeaderField_eq field sig
  obtain ⟨ls, k1, k2, k3, _⟩ := isCommit_lines hc
  rw [List.append_nil] at k3
  have hno' := hno ls m k2 (by rw [e1, k3])
  have hdc : CString data := by
    have hfl : ∀ s : Bytes, (0 : UInt8) ∉ s → (0 : UInt8) ∉ formatLines s := by
      intro s
      induction s with
      | nil => simp [formatLines]
      | cons c s ih =>
        intro hz
        rw [formatLines]
        have := ih (fun h => hz (by simp [h]))
        have hc0 : c ≠ 0 := fun e => hz (by simp [e])
        split <;> simp [this, Ne.symm hc0]
    intro hm
    have hcs' : (0 : UInt8) ∉ content := hcs
    rw [e1] at hcs'
    rw [e2] at hm
    unfold formatHeaderField at hm
    simp only [List.mem_append, List.mem_singleton] at hm hcs'
    rcases hm with (hm | (((hm | hm) | hm) | hm)) | hm
    · exact hcs' (.inl hm)
    · exact hfc hm
    · exact absurd hm (by decide)
    · exact hfl sig hsg hm
    · exact absurd hm (by decide)
    · exact hcs' (.inr hm)
  unfold extractSignature
  rw [cstr_id hdc]
  obtain ⟨k, hk⟩ : ∃ k, data.length + 1 = k + 1 + ls.length := ⟨data.length - ls.length, by
    have := length_unlines ls
    rw [e2, k3]; simp; omega⟩
  have hdata : data = unlines ls ++ ((field ++ b!" " ++ v) ++ c!"\n" :: (unlines (conts.map (c!" " :: ·)) ++ c!"\n" :: m)) := by
    rw [e2, k3, e4, fieldLines, List.append_assoc, unlines_cons]
  have hl : c!"\n" ∉ field ++ b!" " ++ v := by
    intro hm
    simp only [List.mem_append, List.mem_singleton] at hm
    rcases hm with (hm | hm) | hm
    · exact hf hm
    · exact absurd hm (by decide)
    · exact h1 hm
  have e5 : field.isPrefixOf (field ++ b!" " ++ v) = true := isPrefixOf_iff.2 ⟨b!" " ++ v, by simp⟩
  have e6 : (field ++ b!" " ++ v ++ c!"\n" :: (unlines (conts.map (c!" " :: ·)) ++ c!"\n" :: m)).drop field.length =
      (c!" " :: v) ++ c!"\n" :: (unlines (conts.map (c!" " :: ·)) ++ c!"\n" :: m) := by simp
  have hl2 : c!"\n" ∉ c!" " :: v := by
    intro hm
    rcases List.mem_cons.mp hm with hm | hm
    · exact absurd hm (by decide)
    · exact h1 hm
  rw [hk, hdata, extract_skips hf (fun l hl => ⟨k2 l hl, hno' l hl⟩) _ _ (by simp), extract]
  dsimp only
  rw [drop_line hl, isPrefixOf_line hf, take_line hl, e6, drop_line hl2]
  simp only [List.drop_succ_cons, List.drop_zero]
  rw [if_neg (by simp), if_neg (by simp [e5]), if_neg (by simp), if_neg (by simp)]
  have e7 : ((c!" " :: v ++ c!"\n" :: (unlines (conts.map (c!" " :: ·)) ++ c!"\n" :: m)).drop 1).takeWhile (· ≠ c!"\n") = v := by
    simp only [List.cons_append, List.drop_succ_cons, List.drop_zero]
    exact take_line h1 _
  rw [e7, continuation_fwd h2 (by simp)]
  · simp only [Res.bind_ok, List.nil_append]
    rw [e3, e1, k3]
    rfl
  · have := length_unlines (conts.map (c!" " :: ·))
    simp at this ⊢
    omega

/-! ### messages -/

theorem isspace_iff : ∀ c : UInt8, isspace c = true ↔ Space c := by decide +kernel
theorem isspaceNonlf_iff : ∀ c : UInt8, isspaceNonlf c = true ↔ Space c ∧ c ≠ c!"\n" := by decide +kernel

theorem blankNext_iff (more : Bytes) : paragraphEnd more = true ↔ BlankNext (c!"\n" :: more) := by
  have hd := List.takeWhile_append_dropWhile (p := isspaceNonlf) (l := more)
  have key : BlankNext (c!"\n" :: more) ↔ (more.dropWhile isspaceNonlf = [] ∨ (more.dropWhile isspaceNonlf).head? = some c!"\n") := by
    constructor
    · rintro ⟨ws, rest, e, h1, h2⟩
      injection e with _ e
      have : more.dropWhile isspaceNonlf = rest := by
        rw [e]
        refine dropWhile_append_stop _ _ _ (fun x hx => (isspaceNonlf_iff x).2 (h1 x hx)) ?_
        intro x hx
        rcases h2 with rfl | h2
        · cases hx
        · rw [h2] at hx
          injection hx with hx
          subst hx
          decide
      rw [this]
      exact h2
    · intro h
      exact ⟨more.takeWhile isspaceNonlf, more.dropWhile isspaceNonlf, by rw [hd], fun c hc => (isspaceNonlf_iff c).1 (takeWhile_all _ _ c hc), h⟩
  rw [key]
  unfold paragraphEnd
  cases more with
  | nil => simp
  | cons c t =>
    dsimp only
    by_cases hc : c = c!"\n"
    · subst hc
      have : isspaceNonlf c!"\n" = false := by decide
      simp [List.dropWhile_cons, this]
    · simp only [hc, decide_false, Bool.false_or]
      cases h : (c :: t).dropWhile isspaceNonlf with
      | nil => simp
      | cons d u => simp

theorem blankNext_head {s : Bytes} (h : BlankNext s) : ∃ m, s = c!"\n" :: m := by
  obtain ⟨ws, more, e, _⟩ := h
  exact ⟨_, e⟩

theorem summaryLoop_spec (m sp out : Bytes) (hsp : ∀ c ∈ sp, Space c) (space : Option Bytes) (hs : space.getD [] = sp) (hs' : space = some [] → False) :
    ∃ p rest o, FirstParagraph m p rest ∧ Squeezed (sp ++ p) o ∧ summaryLoop m space out = out ++ o := by
  induction m generalizing sp out space with
  | nil =>
    refine ⟨[], [], [], ⟨rfl, .inl rfl, ?_⟩, ?_, by simp [summaryLoop]⟩
    · intro a b e hb
      have : b = [] := (List.append_eq_nil_iff.mp e.symm).2
      exact absurd this hb
    · rw [List.append_nil]; exact .ends sp hsp
  | cons c m ih =>
    have hstep : summaryLoop (c :: m) space out = if c = c!"\n" ∧ paragraphEnd m then out
      else if isspace c then summaryLoop m (some (space.getD [] ++ [c])) out
      else match space with
        | some sp => summaryLoop m none (out ++ (if c!"\n" ∈ sp then b!" " else sp) ++ [c])
        | none => summaryLoop m none (out ++ [c]) := by cases space <;> rfl
    rw [hstep]
    by_cases hb : c = c!"\n" ∧ paragraphEnd m = true
    · rw [if_pos hb]
      refine ⟨[], c :: m, [], ⟨rfl, .inr ?_, ?_⟩, ?_, by simp⟩
      · rw [hb.1]; exact (blankNext_iff m).1 hb.2
      · intro a b e hb
        have : b = [] := (List.append_eq_nil_iff.mp e.symm).2
        exact absurd this hb
      · rw [List.append_nil]; exact .ends sp hsp
    · rw [if_neg hb]
      have hnb : ¬ BlankNext (c :: m) := by
        intro h
        obtain ⟨x, e⟩ := blankNext_head h
        injection e with e1 e2
        subst e1
        exact hb ⟨rfl, (blankNext_iff m).2 h⟩
      have hfp : ∀ p rest, FirstParagraph m p rest → FirstParagraph (c :: m) (c :: p) rest := by
        rintro p rest ⟨h1, h2, h3⟩
        refine ⟨by rw [h1]; rfl, h2, ?_⟩
        intro a b e hb'
        cases a with
        | nil =>
          have : b = c :: p := by simpa using e.symm
          subst this
          rw [List.cons_append, ← h1]
          exact hnb
        | cons x a =>
          injection e with e1 e2
          exact h3 a b e2 hb'
      by_cases hsps : isspace c = true
      · rw [if_pos hsps]
        obtain ⟨p, rest, o, h1, h2, h3⟩ := ih (sp ++ [c]) out (by
          intro d hd
          rcases List.mem_append.mp hd with hd | hd
          · exact hsp d hd
          · rw [List.mem_singleton.mp hd]; exact (isspace_iff c).1 hsps) (some (space.getD [] ++ [c])) (by rw [hs]; rfl) (by simp)
        exact ⟨c :: p, rest, o, hfp p rest h1, by simpa using h2, h3⟩
      · rw [if_neg hsps]
        have hnc : ¬ Space c := fun h => hsps ((isspace_iff c).2 h)
        have key : ∀ out', ∃ p rest o, FirstParagraph (c :: m) p rest ∧ Squeezed (sp ++ p) ((if c!"\n" ∈ sp then b!" " else sp) ++ c :: o) ∧ summaryLoop m none out' = out' ++ o := by
          intro out'
          obtain ⟨p, rest, o, h1, h2, h3⟩ := ih [] out' (by simp) none rfl (by simp)
          exact ⟨c :: p, rest, o, hfp p rest h1, .step sp c p o hsp hnc h2, h3⟩
        cases space with
        | none =>
          dsimp only
          have : sp = [] := by simpa using hs.symm
          subst this
          obtain ⟨p, rest, o, h1, h2, h3⟩ := key (out ++ [c])
          exact ⟨p, rest, _, h1, h2, by rw [h3]; simp⟩
        | some s =>
          dsimp only
          have : s = sp := by simpa using hs
          subst this
          obtain ⟨p, rest, o, h1, h2, h3⟩ := key (out ++ (if c!"\n" ∈ s then b!" " else s) ++ [c])
          exact ⟨p, rest, _, h1, h2, by rw [h3]; simp⟩

/-- **C13 (summary).** The summary of a commit is the first paragraph of its message (without the line feeds before it), with every run of white space
that contains a line feed replaced by a blank and no white space at its end. -/
theorem C13_summary (raw : Bytes) : ∃ nl p rest, raw = nl ++ p ++ rest ∧ (∀ c ∈ nl, c = c!"\n") ∧ (p ++ rest).head? ≠ some c!"\n" ∧
    FirstParagraph (p ++ rest) p rest ∧ Squeezed p (summary raw) := by
  obtain ⟨p, rest, o, h1, h2, h3⟩ := summaryLoop_spec (message raw) [] [] (by simp) none rfl (by simp)
  have e : message raw = p ++ rest := h1.1
  refine ⟨raw.takeWhile (· = c!"\n"), p, rest, ?_, ?_, ?_, by rw [← e]; exact h1, ?_⟩
  · rw [List.append_assoc, ← e]
    exact (List.takeWhile_append_dropWhile (p := (· = c!"\n")) (l := raw)).symm
  · intro c hc
    simpa using takeWhile_all _ _ c hc
  · rw [← e]
    intro hh
    have := dropWhile_head (· = c!"\n") raw _ hh
    simp at this
  · unfold summary
    rw [h3]; simpa using h2

theorem squeezed_noLF {p o : Bytes} (h : Squeezed p o) : c!"\n" ∉ o ∧ ∀ c, o.getLast? = some c → ¬ Space c := by
  induction h with
  | ends sp _ => simp
  | step sp c rest out h1 h2 h3 ih =>
    constructor
    · intro hm
      simp only [List.mem_append, List.mem_cons] at hm
      rcases hm with hm | hm | hm
      · split at hm
        · exact absurd hm (by decide)
        · contradiction
      · exact h2 (by rw [← hm]; decide)
      · exact ih.1 hm
    · intro d hd
      cases out with
      | nil =>
        have : c = d := by simpa using hd
        subst this; exact h2
      | cons x out =>
        refine ih.2 d ?_
        rw [List.getLast?_append] at hd
        simp only [List.getLast?_cons_cons] at hd
        cases hg : (x :: out).getLast? with
        | none => simp at hg
        | some y => rw [hg] at hd; simpa using hd

/-- **C13 (summary in one line).** A summary has no line feed and no white space at its end. -/
theorem C13_summary_line (raw : Bytes) : c!"\n" ∉ summary raw ∧ ∀ c, (summary raw).getLast? = some c → ¬ Space c := by
  obtain ⟨_, _, _, _, _, _, _, h⟩ := C13_summary raw
  exact squeezed_noLF h

theorem skipSummary_spec (m : Bytes) : ∃ s rest, m = s ++ rest ∧ skipSummary m = rest ∧ (rest = [] ∨ rest = b!"\n" ∨ ∃ r, rest = c!"\n" :: c!"\n" :: r) ∧
    ¬ ∃ a b, s = a ++ c!"\n" :: c!"\n" :: b := by
  induction m with
  | nil => exact ⟨[], [], rfl, rfl, .inl rfl, by rintro ⟨a, b, e⟩; simp at e⟩
  | cons c m ih =>
    rw [skipSummary]
    by_cases h : c = c!"\n" ∧ (m = [] ∨ m.head? = some c!"\n")
    · rw [if_pos h]
      refine ⟨[], c :: m, rfl, rfl, .inr ?_, by rintro ⟨a, b, e⟩; simp at e⟩
      obtain ⟨rfl, h | h⟩ := h
      · exact .inl (by rw [h])
      · cases m with
        | nil => cases h
        | cons x r =>
          have : x = c!"\n" := by simpa using h
          subst this
          exact .inr ⟨r, rfl⟩
    · rw [if_neg h]
      obtain ⟨s, rest, h1, h2, h3, h4⟩ := ih
      refine ⟨c :: s, rest, by rw [h1]; rfl, h2, h3, ?_⟩
      rintro ⟨a, b, e⟩
      cases a with
      | nil =>
        simp only [List.nil_append] at e
        injection e with e1 e2
        exact h ⟨e1, .inr (by rw [h1, e2]; rfl)⟩
      | cons x a =>
        injection e with _ e2
        exact h4 ⟨a, b, e2⟩

/-- **C13 (body).** The body of a commit is what follows the first blank line of its message, without white space at both ends; there is none if nothing else follows. -/
theorem C13_body (raw : Bytes) : ∃ nl s w rest, raw = nl ++ s ++ w ++ rest ∧ (∀ c ∈ nl, c = c!"\n") ∧ (s ++ w ++ rest).head? ≠ some c!"\n" ∧ (¬ ∃ a b, s = a ++ c!"\n" :: c!"\n" :: b) ∧
    (∀ c ∈ w, Space c) ∧ (w = [] → rest = []) ∧
    (body raw = none ↔ rest = []) ∧
    ∀ b, body raw = some b → ∃ w', rest = b ++ w' ∧ (∀ c ∈ w', Space c) ∧ (∀ c, b.head? = some c → ¬ Space c) ∧ (∀ c, b.getLast? = some c → ¬ Space c) := by
  obtain ⟨s, rest, h1, h2, h3, h4⟩ := skipSummary_spec (message raw)
  have hw := List.takeWhile_append_dropWhile (p := isspace) (l := rest)
  refine ⟨raw.takeWhile (· = c!"\n"), s, rest.takeWhile isspace, rest.dropWhile isspace, ?_, ?_, ?_, h4, ?_, ?_, ?_, ?_⟩
  · rw [List.append_assoc _ _ (rest.dropWhile isspace), hw, List.append_assoc, ← h1]
    exact (List.takeWhile_append_dropWhile (p := (· = c!"\n")) (l := raw)).symm
  · intro c hc
    simpa using takeWhile_all _ _ c hc
  · rw [List.append_assoc, hw, ← h1]
    intro hh
    have := dropWhile_head (· = c!"\n") raw _ hh
    simp at this
  · intro c hc
    exact (isspace_iff c).1 (takeWhile_all _ _ c hc)
  · intro he
    rcases h3 with rfl | rfl | ⟨r, rfl⟩
    · rfl
    · exact absurd he (by decide)
    · rw [List.takeWhile_cons, if_pos (by decide)] at he; cases he
  · unfold body
    rw [h2]
    dsimp only
    by_cases h : rest.dropWhile isspace = []
    · simp [h]
    · simp [h]
  · intro b hb
    unfold body at hb
    rw [h2] at hb
    dsimp only at hb
    split at hb
    · cases hb
    · injection hb with hb
      generalize hg : rest.dropWhile isspace = x at hb
      have hx := List.takeWhile_append_dropWhile (p := isspace) (l := x.reverse)
      have hx' : x = b ++ (x.reverse.takeWhile isspace).reverse := by
        rw [← hb, ← List.reverse_append, hx, List.reverse_reverse]
      refine ⟨_, hx', ?_, ?_, ?_⟩
      · intro c hc
        exact (isspace_iff c).1 (takeWhile_all _ _ c (by simpa using hc))
      · intro c hc hsp
        have hx2 : x.head? = some c := by
          rw [hx']
          cases b with
          | nil => cases hc
          | cons d b => simpa using hc
        rw [← hg] at hx2
        have := dropWhile_head isspace rest c hx2
        rw [(isspace_iff c).2 hsp] at this
        cases this
      · intro c hc hsp
        rw [← hb, List.getLast?_reverse] at hc
        have := dropWhile_head isspace x.reverse c hc
        rw [(isspace_iff c).2 hsp] at this
        cases this

/-! ### creating -/

/-- **C13 (creating on a branch).** If the reference to update resolves to something that is not the first parent, nothing is written and the call fails. -/
theorem C13_create_modified {size : Nat} {w : World} {author committer : Signature} {encoding : Option Bytes} {message tree : Bytes} {parents : List Bytes}
    {validate : Bool} {tip : Bytes} (h : w.tip = .ok (some tip)) (hp : parents.head? ≠ some tip) :
    (createInternal size w true author committer encoding message tree parents validate).ret < 0 ∧
    (createInternal size w true author committer encoding message tree parents validate).object = none ∧
    (createInternal size w true author committer encoding message tree parents validate).refUpdated = false := by
  have hv : validateTreeAndParents w tree parents (some tip) validate < 0 := by
    unfold validateTreeAndParents
    split
    · decide
    split
    · decide
    simp [hp, EMODIFIED]
  unfold createInternal
  rw [if_pos rfl, h]
  simp [hv]

/-- **C13 (creating).** When the object database takes the object, the call writes the commit that was asked for, and success means that the reference
was updated to it; if the update fails, that is reported. -/
theorem C13_create {size : Nat} {w : World} {updateRef : Bool} {author committer : Signature} {encoding : Option Bytes} {message tree : Bytes} {parents : List Bytes}
    {validate : Bool} (ht : (∃ t, w.tip = .ok t) ∨ ∃ e, w.tip = .err e ∧ e < 0) (hw : w.odbOpens = true ∧ w.freshens = true ∧ w.writes = true)
    (h : (createInternal size w updateRef author committer encoding message tree parents validate).ret = 0) :
    ∃ data, createBuffer size author committer encoding message tree parents = .ok data ∧
    (createInternal size w updateRef author committer encoding message tree parents validate) = ⟨0, some data, updateRef⟩ ∧
    (validate = true → w.validTree tree = true ∧ ∀ p ∈ parents, w.validCommit p = true) ∧
    (updateRef = true → w.tip = .ok none ∨ ∃ t, w.tip = .ok (some t) ∧ parents.head? = some t) := by
  have key : ∃ current, (if updateRef = true then w.tip else .ok none) = .ok current ∧ (updateRef = true → w.tip = .ok current) := by
    cases updateRef with
    | false => exact ⟨none, rfl, by simp⟩
    | true =>
      rcases ht with ⟨t, ht⟩ | ⟨e, h1, h2⟩
      · exact ⟨t, by rw [if_pos rfl, ht], fun _ => ht⟩
      · unfold createInternal at h
        rw [if_pos rfl, h1] at h
        dsimp only at h
        omega
  obtain ⟨current, h1, h2⟩ := key
  unfold createInternal at h ⊢
  rw [h1] at h ⊢
  dsimp only at h ⊢
  by_cases hv : validateTreeAndParents w tree parents current validate < 0
  · rw [if_pos hv] at h
    dsimp only at h
    omega
  · rw [if_neg hv] at h ⊢
    have hv' : (validate = true → w.validTree tree = true ∧ ∀ p ∈ parents, w.validCommit p = true) ∧ (∀ t, current = some t → parents.head? = some t) := by
      unfold validateTreeAndParents at hv
      by_cases c1 : validate = true ∧ ¬ w.validTree tree = true
      · rw [if_pos c1] at hv; omega
      rw [if_neg c1] at hv
      by_cases c2 : validate = true ∧ ¬ parents.all w.validCommit = true
      · rw [if_pos c2] at hv; omega
      rw [if_neg c2] at hv
      refine ⟨fun hval => ⟨Decidable.byContradiction fun hh => c1 ⟨hval, hh⟩, ?_⟩, ?_⟩
      · have : parents.all w.validCommit = true := Decidable.byContradiction fun hh => c2 ⟨hval, hh⟩
        exact List.all_eq_true.mp this
      · rintro t rfl
        refine Decidable.byContradiction fun hh => hv ?_
        simp [hh, EMODIFIED]
    unfold writeCommit at h ⊢
    cases hb : createBuffer size author committer encoding message tree parents with
    | ub => rw [hb] at h; cases h
    | err e => rw [hb] at h; cases h
    | ok data =>
      rw [hb] at h
      simp only [hw.1, hw.2.1, hw.2.2, not_true_eq_false, if_false] at h ⊢
      refine ⟨data, rfl, ?_, hv'.1, ?_⟩
      · cases hu : updateRef with
        | false => rfl
        | true =>
          rw [hu] at h
          simp only [if_true] at h ⊢
          simp [h]
      · intro hu
        have := h2 hu
        cases current with
        | none => exact .inl this
        | some t => exact .inr ⟨t, this, hv'.2 t rfl⟩

/-- When the object cannot be written (or the database not be opened, or the tree not be freshened), the call reports success although there is no commit and the reference has not moved. -/
theorem C13_create_silent {size : Nat} {w : World} {author committer : Signature} {encoding : Option Bytes} {message tree : Bytes} {parents : List Bytes}
    {data : Bytes} (ht : w.tip = .ok none) (hb : createBuffer size author committer encoding message tree parents = .ok data)
    (hw : w.odbOpens = false ∨ w.freshens = false ∨ w.writes = false) :
    createInternal size w true author committer encoding message tree parents false = ⟨0, none, false⟩ := by
  unfold createInternal writeCommit
  rw [if_pos rfl, ht, hb]
  dsimp only
  rw [if_neg (by simp [validateTreeAndParents])]
  rcases hw with h | h | h
  · simp [h]
  · by_cases h1 : w.odbOpens = true <;> simp [h, h1]
  · by_cases h1 : w.odbOpens = true <;> by_cases h2 : w.freshens = true <;> simp [h, h1, h2]

/-! ### examples -/

/-- a commit on top of the tip of a branch -/
example : let w : World := ⟨.ok (some (List.replicate 20 7)), fun _ => true, fun _ => true, true, true, true, 0⟩
    (createInternal 20 w true ⟨b!"A", b!"e", 1, 0, c!"+"⟩ ⟨b!"A", b!"e", 1, 0, c!"+"⟩ none b!"m" (List.replicate 20 1) [List.replicate 20 7] true).refUpdated = true := by
  decide +kernel


def exId (n : UInt8) : Bytes := List.replicate 20 n
def exA : Signature := ⟨b!"A. U. Thor", b!"a@example.org", 1234567890, -90, c!"-"⟩

/-- the hypotheses of the round trip can be met -/
theorem exA_made : Made exA := ⟨b!" A. U. Thor", b!"a@example.org", 1234567890, -90, by decide +kernel, by decide, by decide, by decide, by decide, by decide⟩

example : ∃ data c, createBuffer 20 exA exA (some b!"latin1") b!"subject\n\nbody\n" (exId 1) [exId 2, exId 3] = .ok data ∧ commitParse 20 data false = .ok c ∧
    c.parents = [exId 2, exId 3] ∧ c.encoding = some b!"latin1" := by
  obtain ⟨data, c, h1, h2, _, h3, _, _, h4, _⟩ := C13_roundtrip (size := 20) (by decide) exA_made exA_made (encoding := some b!"latin1") (by
    intro e h; obtain rfl := Option.some.inj h; decide) (message := b!"subject\n\nbody\n") (by decide) (tree := exId 1) rfl (parents := [exId 2, exId 3]) (by decide)
  exact ⟨data, c, h1, h2, h3, h4⟩

def exTree : Bytes := b!"tree 0123456789012345678901234567890123456789\n"
def exContent : Bytes := exTree ++ b!"author A <a@x> 1 +0000\ncommitter A <a@x> 1 +0000\n\nmessage\n"

/-- a commit with a signature of several lines, written and taken apart again -/
example : ∃ data, withSignature 20 exContent (some b!"-----BEGIN\n\nabc\n-----END\n") b!"gpgsig" = .ok data ∧
    data = exTree ++ b!"author A <a@x> 1 +0000\ncommitter A <a@x> 1 +0000\ngpgsig -----BEGIN\n \n abc\n -----END\n \n\nmessage\n" ∧
    extractSignature data b!"gpgsig" = .ok (b!"-----BEGIN\n\nabc\n-----END\n", exContent) :=
  ⟨exTree ++ b!"author A <a@x> 1 +0000\ncommitter A <a@x> 1 +0000\ngpgsig -----BEGIN\n \n abc\n -----END\n \n\nmessage\n", by decide +kernel, rfl, by decide +kernel⟩

/-- the second hypothesis of `C13_signed` is needed: a header whose name only starts with the name of the field loses that prefix in the signed data -/
theorem C13_extract_prefix : extractSignature (exTree ++ b!"gpgsig-sha256 x\ngpgsig y\n\nm") b!"gpgsig" = .ok (b!"y", exTree ++ b!"-sha256 x\n\nm") := by decide +kernel

/-- extraction does not stop at the end of the header: a message can supply a signature to a commit that has none -/
theorem C13_extract_message : extractSignature (exTree ++ b!"author A <a@x> 1 +0000\n\ngpgsig fake\nmore\n") b!"gpgsig" =
    .ok (b!"fake", exTree ++ b!"author A <a@x> 1 +0000\n\nmore\n") := by decide +kernel

/-- an empty field name makes extraction run forever -/
theorem C13_extract_empty (n : Nat) (signed : Bytes) : extract [] n b!"tree x\n\nm" signed = .ub := by
  induction n generalizing signed with
  | zero => rfl
  | succ n ih =>
    rw [extract]
    simp
    exact ih signed

/-- text between a line of white space and the next blank line is neither in the summary nor in the body -/
theorem C13_body_gap : summary b!"subject\n \nlost\n\nbody" = b!"subject" ∧ body b!"subject\n \nlost\n\nbody" = some b!"body" := by decide +kernel

example : summary b!"\n\n  two\n lines  of subject \n\nbody" = b!"  two lines  of subject" := by decide +kernel

end Verif.Commit
