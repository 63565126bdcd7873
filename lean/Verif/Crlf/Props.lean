import Verif.Crlf.Lemmas
namespace Verif.Crlf
open Spec

/-- **C37.** `git_str_crlf_to_lf` drops exactly the carriage returns that stand before a newline, and never writes past the room it
asked for. -/
theorem C37_crlf_to_lf (s : Bytes) : crlfToLf s = .ok (toLf s) := crlfToLf_eq s

/-- **C37.** `git_str_lf_to_crlf` adds a carriage return before exactly the newlines that have none. -/
theorem C37_lf_to_crlf (s : Bytes) : lfToCrlf s = toCrlf s := lfToCrlf_eq s

/-- **C37.** To CRLF and back is the original for every text without CRLF (lone carriage returns included); in general the CRLFs are lost. -/
theorem C37_there_and_back (s : Bytes) :
    crlfToLf (lfToCrlf s) = crlfToLf s ∧ (pairs s = 0 → crlfToLf (lfToCrlf s) = .ok s) := by
  rw [crlfToLf_eq, crlfToLf_eq, lfToCrlf_eq, toLf_toCrlf]
  refine ⟨rfl, fun h => ?_⟩
  have : ∀ s : Bytes, pairs s = 0 → toLf s = s := by
    intro s
    induction s with
    | nil => intro _; rfl
    | cons c cs ih =>
      intro h
      rw [pairs] at h
      rw [toLf]
      split
      · rename_i hc; rw [if_pos hc] at h; omega
      · rw [ih (by omega)]
  rw [this s h]

/-- **C37.** To LF and back is the original when all line ends are CRLF and there is no CR CR LF. -/
theorem C37_back_and_there (s : Bytes) (h1 : AllCrlf s) (h2 : NoDouble s) :
    ∃ t, crlfToLf s = .ok t ∧ lfToCrlf t = s := ⟨_, crlfToLf_eq s, by rw [lfToCrlf_eq, toCrlf_toLf s h1 h2]⟩

/-- **C37.** Converting to CRLF twice changes nothing more. -/
theorem C37_lf_to_crlf_idempotent (s : Bytes) : lfToCrlf (lfToCrlf s) = lfToCrlf s := by
  rw [lfToCrlf_eq, lfToCrlf_eq, toCrlf_idem]

/-- Converting to LF twice can change more: CR CR LF. -/
theorem C37_crlf_to_lf_not_idempotent : crlfToLf b!"\r\r\n" = .ok b!"\r\n" ∧ crlfToLf b!"\r\n" = .ok b!"\n" := by decide

/-- **C37.** What counts as binary, and the statistics. -/
theorem C37_binary (b : Bytes) : ((gather b).2 = true ↔ Binary b) ∧ (gather b).1.lf = b.count c!"\n" ∧ (gather b).1.cr = b.count c!"\r" ∧
    (gather b).1.crlf = pairs b := by
  refine ⟨gather_binary b, ?_, ?_, ?_⟩ <;> rw [gather_eq]

/-- what the `text` (or the old `crlf`) attribute says -/
def textMeans : Attr → Action
  | .true => .text
  | .false => .binary
  | .unspecified => .undefined
  | .value s => ([(b!"auto", .auto), (b!"input", .textInput)] : List (Bytes × Action)).lookup s |>.getD .undefined

/-- what the `eol` attribute says -/
def eolMeans : Attr → Eol
  | .true | .false | .unspecified => .unset
  | .value s => ([(b!"crlf", .crlf), (b!"lf", .lf)] : List (Bytes × Eol)).lookup s |>.getD .unset

theorem checkCrlf_means (a : Attr) : checkCrlf a = textMeans a := by
  cases a with
  | value s =>
    unfold checkCrlf textMeans
    by_cases h1 : s = b!"input"
    · subst h1; decide
    · by_cases h2 : s = b!"auto"
      · subst h2; decide
      · dsimp only
        rw [if_neg h1, if_neg h2, List.lookup_cons, beq_false_of_ne h2, List.lookup_cons, beq_false_of_ne h1]
        rfl
  | _ => rfl

theorem checkEol_means (a : Attr) : checkEol a = eolMeans a := by
  cases a with
  | value s =>
    unfold checkEol eolMeans
    by_cases h1 : s = b!"lf"
    · subst h1; decide
    · by_cases h2 : s = b!"crlf"
      · subst h2; decide
      · dsimp only
        rw [if_neg h1, if_neg h2, List.lookup_cons, beq_false_of_ne h2, List.lookup_cons, beq_false_of_ne h1]
        rfl
  | _ => rfl

/-- which conversion the attributes and the configuration ask for -/
def wanted (cfg : Config) (v : Option Values) : Action :=
  let text : Attr := match v with
    | none => .unspecified
    | some v => if textMeans v.text = .undefined then v.crlf else v.text
  let eol : Eol := match v with
    | none => .unset
    | some v => eolMeans v.eol
  let native : Bool := cfg.auto = .true ∨ (cfg.auto = .false ∧ (cfg.eol = .crlf ∨ (cfg.eol = .unset ∧ cfg.native = .crlf)))
  match textMeans text, eol with
  | .binary, _ => .binary
  | .auto, .lf => .autoInput
  | .auto, .crlf => .autoCrlf
  | .auto, .unset => .auto
  | _, .lf => .textInput
  | _, .crlf => .textCrlf
  | .text, .unset => if native then .textCrlf else .textInput
  | .textInput, .unset => .textInput
  | _, .unset => match cfg.auto with
    | .false => .binary
    | .true => .autoCrlf
    | .input => .autoInput

theorem checkCrlf_cases (a : Attr) : checkCrlf a = .text ∨ checkCrlf a = .binary ∨ checkCrlf a = .undefined ∨ checkCrlf a = .textInput ∨ checkCrlf a = .auto := by
  unfold checkCrlf
  split
  · simp
  · simp
  · simp
  · split
    · simp
    · split <;> simp

/-- **C37.** The decision table of the attributes; in particular the action is never left undefined once the configuration was read. -/
theorem C37_action (cfg : Config) (u : Bool) (v : Option Values) : (convertAttrs (some cfg) u v).action = wanted cfg v := by
  obtain ⟨au, sa, eo, na⟩ := cfg
  have hx : ∀ sa', byConfig = fun a (c : Config) => byConfig a ⟨c.auto, sa', c.eol, c.native⟩ := fun _ => rfl
  unfold convertAttrs wanted
  simp only [← checkCrlf_means, ← checkEol_means]
  cases v with
  | none =>
    cases u <;> cases sa <;> cases au <;> rfl
  | some v =>
    obtain ⟨vc, ve, vt⟩ := v
    dsimp only
    generalize checkEol ve = e
    rcases checkCrlf_cases vt with h | h | h | h | h <;> simp only [h]
    case inr.inr.inl =>
      simp only [if_true]
      rcases checkCrlf_cases vc with h' | h' | h' | h' | h' <;> simp only [h'] <;>
        cases u <;> cases sa <;> cases au <;> cases e <;> cases eo <;> cases na <;> rfl
    all_goals
      simp only [reduceCtorEq, if_false, h]
      cases u <;> cases sa <;> cases au <;> cases e <;> cases eo <;> cases na <;> rfl

theorem count_zero_of (s : Bytes) (h : s.count c!"\r" = 0) : c!"\r" ∉ s := fun hm => by
  have := List.count_pos_iff.mpr hm; omega

theorem pairs_nil (s : Bytes) (h : c!"\r" ∉ s) : pairs s = 0 := by
  have := pairs_le_cr s
  rw [List.count_eq_zero_of_not_mem h] at this; omega

theorem pairs_zero_toLf (s : Bytes) (h : pairs s = 0) : toLf s = s := by
  have := (C37_there_and_back s).2 h
  rw [(C37_there_and_back s).1, crlfToLf_eq] at this
  exact Res.ok.inj this

/-- what `toOdb` does, without the internals -/
theorem toOdb_eq (ca : Attrs) (e : Entry) (b : Bytes) (hb : ca.action ≠ .binary) :
    toOdb ca e b = if isAuto ca.action = true ∧ (Binary b ∨ hasCrInIndex e = true) then .ok b
      else (checkSafe ca (gather b).1).bind fun _ => .ok (toLf b) := by
  unfold toOdb
  by_cases hn : b = []
  · subst hn
    rw [if_pos (by simp)]
    split
    · rfl
    · have : (gather []).1 = ⟨0, 0, 0, 0, 0, 0⟩ := rfl
      rw [this]
      have : checkSafe ca ⟨0, 0, 0, 0, 0, 0⟩ = .ok () := by
        unfold checkSafe; simp
      rw [this]; rfl
  rw [if_neg (by simp [hb, hn])]
  dsimp only
  have hg := gather_binary b
  have hc : (gather b).1.crlf = pairs b := by rw [gather_eq]
  by_cases h1 : isAuto ca.action = true
  · by_cases h2 : Binary b
    · rw [if_pos ⟨h1, hg.mpr h2⟩, if_pos ⟨h1, .inl h2⟩]
    · rw [if_neg (fun h => h2 (hg.mp h.2))]
      by_cases h3 : hasCrInIndex e = true
      · rw [if_pos ⟨h1, h3⟩, if_pos ⟨h1, .inr h3⟩]
      · rw [if_neg (c := isAuto ca.action = true ∧ hasCrInIndex e = true) (fun h => h3 h.2),
          if_neg (c := isAuto ca.action = true ∧ (Binary b ∨ hasCrInIndex e = true)) (fun h => h.2.elim h2 h3), hc]
        cases checkSafe ca (gather b).1 with
        | err => rfl
        | ub => rfl
        | ok _ =>
          show (if pairs b = 0 then Res.ok b else crlfToLf b) = .ok (toLf b)
          by_cases hp : pairs b = 0
          · rw [if_pos hp, pairs_zero_toLf b hp]
          · rw [if_neg hp, crlfToLf_eq]
  · rw [if_neg (fun h => h1 h.1), if_neg (c := isAuto ca.action = true ∧ hasCrInIndex e = true) (fun h => h1 h.1),
      if_neg (c := isAuto ca.action = true ∧ (Binary b ∨ hasCrInIndex e = true)) (fun h => h1 h.1), hc]
    cases checkSafe ca (gather b).1 with
    | err => rfl
    | ub => rfl
    | ok _ =>
      show (if pairs b = 0 then Res.ok b else crlfToLf b) = .ok (toLf b)
      by_cases hp : pairs b = 0
      · rw [if_pos hp, pairs_zero_toLf b hp]
      · rw [if_neg hp, crlfToLf_eq]

/-- what `toWorkdir` does -/
theorem toWorkdir_eq (ca : Attrs) (b : Bytes) :
    toWorkdir ca b = if outputEol ca = .crlf ∧ b.count c!"\n" ≠ pairs b ∧ ¬ (isAuto ca.action = true ∧ (c!"\r" ∈ b ∨ Binary b))
      then toCrlf b else b := by
  unfold toWorkdir
  have hg := gather_binary b
  have hc : (gather b).1.crlf = pairs b := by rw [gather_eq]
  have hl : (gather b).1.lf = b.count c!"\n" := by rw [gather_eq]
  have hr : (gather b).1.cr = b.count c!"\r" := by rw [gather_eq]
  by_cases h1 : outputEol ca = .crlf
  · by_cases hn : b = []
    · subst hn; simp [pairs]
    · rw [if_neg (by simp [h1, hn])]
      dsimp only
      rw [hc, hl, hr]
      have hle := pairs_le_lf b
      by_cases h2 : b.count c!"\n" = pairs b
      · rw [if_pos (.inr h2), if_neg (fun h => h.2.1 h2)]
      · rw [if_neg (by omega)]
        have hcr : b.count c!"\r" > 0 ↔ c!"\r" ∈ b := List.count_pos_iff
        by_cases h3 : isAuto ca.action = true
        · by_cases h4 : c!"\r" ∈ b
          · rw [if_pos ⟨h3, hcr.mpr h4⟩, if_neg (fun h => h.2.2 ⟨h3, .inl h4⟩)]
          · rw [if_neg (fun h => h4 (hcr.mp h.2))]
            by_cases h5 : Binary b
            · rw [if_pos ⟨h3, hg.mpr h5⟩, if_neg (fun h => h.2.2 ⟨h3, .inr h5⟩)]
            · rw [if_neg (fun h => h5 (hg.mp h.2)), if_pos ⟨h1, h2, fun h => h.2.elim h4 h5⟩, lfToCrlf_eq]
        · rw [if_neg (fun h => h3 h.1), if_neg (fun h => h3 h.1), if_pos ⟨h1, h2, fun h => h3 h.1⟩, lfToCrlf_eq]
  · rw [if_pos (.inr h1), if_neg (fun h => h1 h.1)]

theorem checkSafe_ok (ca : Attrs) (st : Stats) (h1 : outputEol ca = .lf → st.crlf = 0) (h2 : outputEol ca = .crlf → st.crlf = st.lf) :
    checkSafe ca st = .ok () := by
  unfold checkSafe
  split
  · rfl
  · split
    · rename_i h; rw [if_neg (by simp [h1 h])]
    · split
      · rename_i h; rw [if_neg (by simp [h2 h])]
      · rfl

/-- **C37.** With automatic conversion, checking a blob out and adding the unmodified file again gives the same blob, without an error,
for every blob (text with any mixture of line ends, or binary), every configuration and every combination of attributes that asks for
automatic conversion. -/
theorem C37_auto (cfg : Config) (u : Bool) (v : Option Values) (blob : Bytes)
    (h : wanted cfg v = .auto ∨ wanted cfg v = .autoInput ∨ wanted cfg v = .autoCrlf) :
    clean (some cfg) u v (.file (some blob)) (smudge (some cfg) u v blob) = .ok blob := by
  have ha := C37_action cfg u v
  unfold clean smudge
  dsimp only
  generalize convertAttrs (some cfg) u v = ca at *
  rw [← ha] at h
  have hauto : isAuto ca.action = true := by
    unfold isAuto; rcases h with h | h | h <;> simp [h]
  have hb : ca.action ≠ .binary := by rcases h with h | h | h <;> simp [h]
  rw [if_neg hb, if_neg hb, toWorkdir_eq]
  have hidx : hasCrInIndex (.file (some blob)) = true ↔ c!"\r" ∈ blob := by simp [hasCrInIndex]
  have heol : outputEol ca = .crlf ∨ outputEol ca = .lf := by
    unfold outputEol
    rcases h with h | h | h <;> simp only [h]
    · cases textEolIsCrlf ca.cfg <;> simp
    · simp
    · simp
  split
  · rename_i hc
    obtain ⟨h1, h2, h3⟩ := hc
    have hncr : c!"\r" ∉ blob := fun hh => h3 ⟨hauto, .inl hh⟩
    have hnb : ¬ Binary blob := fun hh => h3 ⟨hauto, .inr hh⟩
    rw [toOdb_eq _ _ _ hb, if_neg, checkSafe_ok]
    · show Res.ok (toLf (toCrlf blob)) = _
      rw [toLf_toCrlf, toLf_id blob hncr]
    · intro hh; rw [h1] at hh; cases hh
    · intro _
      rw [gather_eq]
      dsimp only
      have e1 := pairs_toCrlf none blob
      simp at e1
      rw [show pairs (toCrlf blob) = _ from e1, List.count_eq_countP, List.count_eq_countP]
      unfold toCrlf
      rw [countP_toCrlf _ (by rfl)]
    · rintro ⟨-, hh | hh⟩
      · exact hnb ((binary_toCrlf blob hncr).mp hh)
      · exact hncr (hidx.mp hh)
  · rename_i hc
    rw [toOdb_eq _ _ _ hb]
    split
    · rfl
    · rename_i hh
      have hnb : ¬ Binary blob := fun x => hh ⟨hauto, .inl x⟩
      have hncr : c!"\r" ∉ blob := fun x => hh ⟨hauto, .inr (hidx.mpr x)⟩
      rw [checkSafe_ok]
      · show Res.ok (toLf blob) = _
        rw [toLf_id blob hncr]
      · intro _; rw [gather_eq]; exact pairs_nil blob hncr
      · intro he
        rw [gather_eq]
        apply Classical.byContradiction
        intro hne
        exact hc ⟨he, fun e => hne e.symm, fun x => x.2.elim hncr hnb⟩

/-- **C37.** With forced conversion, checking a blob out and adding the unmodified file again gives the blob with LF line ends (so a blob
with LF line ends is not changed). With `core.safecrlf` this is refused exactly when it would change a blob that is checked out as it is. -/
theorem C37_text (cfg : Config) (u : Bool) (v : Option Values) (e : Entry) (blob : Bytes) :
    (wanted cfg v = .textCrlf → clean (some cfg) u v e (smudge (some cfg) u v blob) = .ok (toLf blob)) ∧
    (wanted cfg v = .textInput → clean (some cfg) u v e (smudge (some cfg) u v blob) =
      if cfg.safe = .fail ∧ u = false ∧ pairs blob ≠ 0 then .err (-1) else .ok (toLf blob)) ∧
    (wanted cfg v = .binary → clean (some cfg) u v e (smudge (some cfg) u v blob) = .ok blob) := by
  have ha := C37_action cfg u v
  have hcfg : (convertAttrs (some cfg) u v).cfg = if u = true ∧ cfg.safe = .fail then { cfg with safe := .warn } else cfg := rfl
  unfold clean smudge
  dsimp only
  generalize convertAttrs (some cfg) u v = ca at *
  rw [← ha]
  refine ⟨?_, ?_, ?_⟩
  · intro h
    have hb : ca.action ≠ .binary := by simp [h]
    have hauto : isAuto ca.action = false := by simp [isAuto, h]
    have heol : outputEol ca = .crlf := by simp [outputEol, h]
    rw [if_neg hb, if_neg hb, toWorkdir_eq]
    rw [toOdb_eq _ _ _ hb, if_neg (by simp [hauto]), checkSafe_ok]
    · show Res.ok (toLf _) = _
      split
      · rw [toLf_toCrlf]
      · rfl
    · intro hh; rw [heol] at hh; cases hh
    · intro _
      rw [gather_eq]
      dsimp only
      split
      · have e1 := pairs_toCrlf none blob
        simp at e1
        rw [show pairs (toCrlf blob) = _ from e1, List.count_eq_countP, List.count_eq_countP]
        unfold toCrlf
        rw [countP_toCrlf _ (by rfl)]
      · rename_i hc
        simp only [heol, hauto, true_and, Bool.false_eq_true, false_and, not_false_iff, and_true, ne_eq, Decidable.not_not] at hc
        exact hc.symm
  · intro h
    have hb : ca.action ≠ .binary := by simp [h]
    have hauto : isAuto ca.action = false := by simp [isAuto, h]
    have heol : outputEol ca = .lf := by simp [outputEol, h]
    rw [if_neg hb, if_neg hb, toWorkdir_eq, if_neg (by simp [heol])]
    rw [toOdb_eq _ _ _ hb, if_neg (by simp [hauto])]
    have hs : checkSafe ca (gather blob).1 = if cfg.safe = .fail ∧ u = false ∧ pairs blob ≠ 0 then .err (-1) else .ok () := by
      unfold checkSafe
      rw [hcfg, heol, gather_eq]
      dsimp only
      obtain ⟨au, sa, eo, na⟩ := cfg
      by_cases hp : pairs blob = 0
      · cases sa <;> cases u <;> simp [hp]
      · cases sa <;> cases u <;> simp [hp]
    rw [hs]
    split <;> rfl
  · intro h
    rw [if_pos h, if_pos h]

/-- **C37.** What `core.safecrlf = true` protects: when a file is added without an error, with conversion and no CR in the blob that the
index already has, checking it out again gives the same file, except that with forced conversion CR CR LF becomes CR LF. -/
theorem C37_safecrlf (cfg : Config) (v : Option Values) (e : Entry) (file blob : Bytes) (hs : cfg.safe = .fail)
    (hi : hasCrInIndex e = false) (hd : NoDouble file ∨ wanted cfg v ≠ .textCrlf)
    (h : clean (some cfg) false v e file = .ok blob) : smudge (some cfg) false v blob = file := by
  have ha := C37_action cfg false v
  have hcfg : (convertAttrs (some cfg) false v).cfg = cfg := by unfold convertAttrs; simp
  unfold clean at h
  unfold smudge
  dsimp only at h ⊢
  rw [← ha] at hd
  generalize hca : convertAttrs (some cfg) false v = ca at *
  by_cases hb : ca.action = .binary
  · rw [if_pos hb] at h ⊢; exact (Res.ok.inj h).symm
  rw [if_neg hb] at h ⊢
  rw [toOdb_eq _ _ _ hb] at h
  rw [toWorkdir_eq]
  have heol : outputEol ca = .crlf ∨ outputEol ca = .lf := by
    unfold outputEol
    cases hh : ca.action <;> simp_all
    all_goals (cases textEolIsCrlf cfg <;> simp)
  by_cases hbin : isAuto ca.action = true ∧ (Binary file ∨ hasCrInIndex e = true)
  · rw [if_pos hbin] at h
    have := Res.ok.inj h
    subst this
    obtain ⟨h1, h2 | h2⟩ := hbin
    · rw [if_neg]
      intro hh
      exact hh.2.2 ⟨h1, .inr h2⟩
    · rw [hi] at h2; cases h2
  · rw [if_neg hbin] at h
    -- the check of safecrlf
    have hck : checkSafe ca (gather file).1 = .ok () := by
      cases hh : checkSafe ca (gather file).1 with
      | ok _ => rfl
      | err _ => rw [hh] at h; cases h
      | ub => rw [hh] at h; cases h
    rw [hck] at h
    have := Res.ok.inj h
    subst this
    unfold checkSafe at hck
    rw [hcfg, hs, gather_eq] at hck
    simp only [reduceCtorEq, if_false, ne_eq, not_false_iff, and_true] at hck
    rcases heol with he | he
    · rw [if_neg (by rw [he]; simp), if_pos he] at hck
      have hall : pairs file = file.count c!"\n" := by
        by_cases hh : pairs file = file.count c!"\n"
        · exact hh
        · rw [if_pos hh] at hck; cases hck
      have hlf : (toLf file).count c!"\n" = file.count c!"\n" := by
        rw [List.count_eq_countP, List.count_eq_countP, countP_toLf _ (by rfl)]
      -- no CR CR LF: in the automatic case bare CRs are binary
      have hcases : NoDouble file ∧ (isAuto ca.action = true → NoBareCr file ∧ ¬ Binary file) := by
        by_cases hau : isAuto ca.action = true
        · have hnb : ¬ Binary file := fun x => hbin ⟨hau, .inl x⟩
          have hbare : NoBareCr file := Classical.byContradiction fun x => hnb (.inl x)
          refine ⟨?_, fun _ => ⟨hbare, hnb⟩⟩
          intro x y hxy
          -- a CR before CR is bare
          have : ∀ x y : Bytes, pairs (x ++ b!"\r\r\n" ++ y) < (x ++ b!"\r\r\n" ++ y).count c!"\r" := by
            intro x y
            induction x with
            | nil =>
              show pairs (c!"\r" :: c!"\r" :: c!"\n" :: y) < List.count c!"\r" (c!"\r" :: c!"\r" :: c!"\n" :: y)
              have := pairs_le_cr y
              simp [pairs]; omega
            | cons c cs ih =>
              rw [List.cons_append, List.cons_append, pairs, List.count_cons]
              split
              · rename_i hc; simp [hc.1]; simp at ih; omega
              · omega
          have := this x y
          rw [← hxy] at this
          unfold NoBareCr at hbare
          omega
        · rcases hd with hd | hd
          · exact ⟨hd, fun x => absurd x hau⟩
          · exfalso
            -- not automatic, not binary, CRLF: `textCrlf` or `undefined`, which cannot be
            have hact := ha
            unfold isAuto at hau
            have hu : ca.action ≠ .undefined ∧ ca.action ≠ .text := by
              rw [hact]
              constructor <;>
              · unfold wanted; simp only [← checkCrlf_means, ← checkEol_means]
                try dsimp only
                split <;> first | (simp; done) | (split <;> simp)
            have hau' : ca.action ≠ .auto ∧ ca.action ≠ .autoInput ∧ ca.action ≠ .autoCrlf := by simpa using hau
            clear hau hact ha hca
            cases hh : ca.action with
            | undefined => exact hu.1 hh
            | binary => exact hb hh
            | text => exact hu.2 hh
            | textInput => rw [outputEol, hh] at he; cases he
            | textCrlf => exact hd hh
            | auto => exact hau'.1 hh
            | autoInput => exact hau'.2.1 hh
            | autoCrlf => exact hau'.2.2 hh
      obtain ⟨hnd, hbare⟩ := hcases
      have hp0 := pairs_toLf file hnd
      by_cases hz : file.count c!"\n" = 0
      · rw [if_neg (by rw [hlf, hp0]; simp [hz])]
        exact pairs_zero_toLf file (by omega)
      · rw [if_pos]
        · exact toCrlf_toLf file hall hnd
        · refine ⟨he, by rw [hlf, hp0]; exact hz, ?_⟩
          rintro ⟨h1, h2 | h2⟩
          · have := cr_toLf file
            have hb' := (hbare h1).1
            unfold NoBareCr at hb'
            have : (toLf file).count c!"\r" > 0 := List.count_pos_iff.mpr h2
            omega
          · exact (hbare h1).2 ((binary_toLf file (hbare h1).1).mp h2)
    · rw [if_pos he] at hck
      have hz : pairs file = 0 := by
        by_cases hh : pairs file = 0
        · exact hh
        · rw [if_pos hh] at hck; cases hck
      rw [if_neg (by simp [he])]
      exact pairs_zero_toLf file hz

/-- `core.safecrlf` is not looked at when the index has a blob with CR: a file that is added without an error comes back different. -/
theorem C37_safecrlf_skipped : ∃ (cfg : Config) (e : Entry) (file : Bytes), cfg.safe = .fail ∧
    clean (some cfg) false none e file = .ok file ∧ smudge (some cfg) false none file ≠ file :=
  ⟨⟨.true, .fail, .unset, .lf⟩, .file (some b!"a\r\nb\n"), b!"a\nb\n", by decide +kernel⟩

/-- When the configuration cannot be read, `crlf_check` ignores the error and text is checked out with CRLF. -/
theorem C37_config_error (v : Option Values) : smudge none false v b!"a\nb\n" = b!"a\r\nb\r\n" := by
  show (if (Action.undefined : Action) = .binary then b!"a\nb\n" else toWorkdir ⟨.undefined, ⟨.false, .false, .unset, .lf⟩⟩ b!"a\nb\n") = _
  decide +kernel

/-! ### concrete cases -/
example : wanted ⟨.true, .fail, .unset, .lf⟩ none = .autoCrlf := by decide
example : wanted ⟨.false, .fail, .unset, .lf⟩ (some ⟨.unspecified, .value b!"crlf", .true⟩) = .textCrlf := by decide
example : wanted ⟨.true, .fail, .unset, .lf⟩ (some ⟨.unspecified, .unspecified, .false⟩) = .binary := by decide
example : smudge (some ⟨.true, .fail, .unset, .lf⟩) false none b!"a\nb\n" = b!"a\r\nb\r\n" := by decide +kernel
example : clean (some ⟨.true, .fail, .unset, .lf⟩) false none .absent b!"a\r\nb\r\n" = .ok b!"a\nb\n" := by decide +kernel
example : clean (some ⟨.true, .fail, .unset, .lf⟩) false none .absent b!"a\r\nb\n" = .err (-1) := by decide +kernel
example : AllCrlf b!"a\r\nb\r\n" := by decide
example : Binary [0, 1] := by simp [Binary]

end Verif.Crlf
