import Verif.Patch.Lemmas10
/-! # C47: a patch takes the old file to the new one -/
namespace Verif.Patch
open Spec

/-- Hunks that describe parts of a file, each given an answer by the caller (zero or more): the hunks with answer zero are applied, the others are left out,
wherever they are. -/
theorem C47_select {answers : Nat → Int} (ha : ∀ k, 0 ≤ answers k) {parts : List Part} {hs : List Hunk} {tail : List Bytes} {source : Bytes}
    (hd : Describes 0 0 parts hs) (hsrc : Lines (oldOf parts tail) source) (ho : (oldOf parts tail).length < 2 ^ 31) (hn : (newOf parts tail).length < 2 ^ 31) :
    ∃ hs', applyHunks answers source hs = .ok ((chosenOf (fun k => decide (answers k = 0)) 0 parts tail).flatten, hs') := by
  obtain ⟨hs', e, _⟩ := applyHunks_eq ha hd hsrc ho hn
  exact ⟨hs', e⟩

/-- Applying all the hunks gives the new file. -/
theorem C47_apply {parts : List Part} {hs : List Hunk} {tail : List Bytes} {source target : Bytes}
    (hd : Describes 0 0 parts hs) (hsrc : Lines (oldOf parts tail) source) (htgt : Lines (newOf parts tail) target) (ho : (oldOf parts tail).length < 2 ^ 31) (hn : (newOf parts tail).length < 2 ^ 31) :
    ∃ hs', applyHunks (fun _ => 0) source hs = .ok (target, hs') := by
  obtain ⟨hs', e, _⟩ := applyHunks_eq (answers := fun _ => 0) (fun _ => Int.le_refl _) hd hsrc ho hn
  rw [chosenOf_all (by simp), htgt.1] at e
  exact ⟨hs', e⟩

/-- The patch that a successful application leaves behind (it changes the lines before the markers) can be applied to the same file again with any answers. -/
theorem C47_again {answers answers' : Nat → Int} (ha : ∀ k, 0 ≤ answers k) (ha' : ∀ k, 0 ≤ answers' k) {parts : List Part} {hs hs' : List Hunk} {tail : List Bytes} {source out : Bytes}
    (hd : Describes 0 0 parts hs) (hsrc : Lines (oldOf parts tail) source) (ho : (oldOf parts tail).length < 2 ^ 31) (hn : (newOf parts tail).length < 2 ^ 31)
    (he : applyHunks answers source hs = .ok (out, hs')) :
    ∃ hs'', applyHunks answers' source hs' = .ok ((chosenOf (fun k => decide (answers' k = 0)) 0 parts tail).flatten, hs'') := by
  obtain ⟨hs1, e, hd'⟩ := applyHunks_eq ha hd hsrc ho hn
  rw [e] at he
  have he := Res.ok.inj he
  have : hs1 = hs' := congrArg Prod.snd he
  subst this
  exact C47_select ha' hd' hsrc ho hn

/-- **diff then apply**: for every script of changes between two files of fewer than 2^30 lines, any number of context lines but zero (or no pure deletions), any
distance between hunks and any function lines, a patch is made and applying it to the old file gives the new file. -/
theorem C47_diff {ctx inter : Nat} {funcs : Change → Bytes} {steps : List Step} {tail : List Bytes} {old new : Bytes}
    (hctx : 1 ≤ ctx ∨ ∀ s ∈ steps, s.add ≠ []) (ho : Lines (scriptOld steps tail) old) (hn : Lines (scriptNew steps tail) new)
    (lo : (scriptOld steps tail).length < 2 ^ 30) (ln : (scriptNew steps tail).length < 2 ^ 30) :
    ∃ hs hs', emitDiff ctx inter funcs (scriptOld steps tail) (scriptNew steps tail) (changesOf 0 0 steps) = .ok hs ∧ applyHunks (fun _ => 0) old hs = .ok (new, hs') := by
  obtain ⟨hs, parts, tail', e, hd, f1, f2, _⟩ := emitDiff_eq (ctx := ctx) (inter := inter) (n := 2 ^ 30 - 1) (funcs := funcs) (F := fun _ => True) (fun _ => trivial) (by omega) tail
    steps.length steps [] [] 0 (Nat.le_refl _) (Nat.zero_le _) (.inl ⟨rfl, rfl, rfl⟩) hctx (by rw [List.nil_append]; omega) (by rw [List.nil_append]; omega)
  rw [List.drop_zero] at f1 f2
  rw [← f1] at ho lo
  rw [← f2] at hn ln
  obtain ⟨hs', e'⟩ := C47_apply hd ho hn (by omega) (by omega)
  exact ⟨hs, hs', e, e'⟩

/-- **diff, print, parse, apply**: the text of the patch, followed by anything that is not another hunk or marker, is read to its end and applying what was read to the
old file gives the new file. The files have no NUL bytes and fewer than 10^8 - 1 lines; the lines of functions are as the diff gives them; the changes of the script are
not empty and not adjacent. -/
theorem C47_text {ctx inter : Nat} {funcs : Change → Bytes} {steps : List Step} {tail : List Bytes} {old new : Bytes}
    (hctx : 1 ≤ ctx ∨ ∀ s ∈ steps, s.add ≠ []) (ho : Lines (scriptOld steps tail) old) (hn : Lines (scriptNew steps tail) new)
    (lo : (scriptOld steps tail).length + 1 < 10 ^ 8) (ln : (scriptNew steps tail).length + 1 < 10 ^ 8) (zo : 0 ∉ old) (zn : 0 ∉ new)
    (hf : ∀ c, (funcs c).length ≤ 80 ∧ c!"\n" ∉ funcs c) (hne : ∀ s ∈ steps, s.del ≠ [] ∨ s.add ≠ []) (hadj : ∀ s ∈ steps.tail, s.same ≠ []) :
    ∃ hs text, emitDiff ctx inter funcs (scriptOld steps tail) (scriptNew steps tail) (changesOf 0 0 steps) = .ok hs ∧ printHunks hs = .ok text ∧
      ∀ T : Bytes, ¬ b!"@@ -" <+: T → ¬ b!"\\ " <+: T → ∃ hs' hs'', parsePatch (text ++ T) = .ok (hs', T) ∧ applyHunks (fun _ => 0) old hs' = .ok (new, hs'') := by
  obtain ⟨hs, parts, tail', e, hd, f1, f2, hm, _, hpc, htidy⟩ := emitDiff_eq (ctx := ctx) (inter := inter) (n := 10 ^ 8 - 2) (funcs := funcs) (F := FuncLine) (fun c => hf c) (by omega) tail
    steps.length steps [] [] 0 (Nat.le_refl _) (Nat.zero_le _) (.inl ⟨rfl, rfl, rfl⟩) hctx (by rw [List.nil_append]; omega) (by rw [List.nil_append]; omega)
  rw [List.drop_zero] at f1 f2
  rw [← f1] at ho lo
  rw [← f2] at hn ln
  have hgood := good_parts ho hn zo zn (htidy hadj)
  obtain ⟨text, t1, _, t3⟩ := parseHunks_eq (n := 10 ^ 8 - 2) (by omega) parts hs _ _ hm hd (fun p hp => by
    refine ⟨?_, hgood p hp⟩
    rcases hpc p hp with h | ⟨s, hs, h1, h2⟩
    · exact h
    · rcases hne s hs with h | h
      · exact absurd h1 h
      · exact absurd h2 h)
  refine ⟨hs, text, e, t1, fun T hT1 hT2 => ?_⟩
  have nc : ∀ s, ¬ s <+: T → contains T s = false := by
    intro s h
    cases hc : contains T s with
    | false => rfl
    | true => exact absurd (contains_head hc) h
  obtain ⟨hs', e', hd'⟩ := t3 T (nc _ hT1) (nc _ hT2) (text ++ T).length false (Nat.le_refl _)
  obtain ⟨hs'', e''⟩ := C47_apply hd' ho hn (by omega) (by omega)
  exact ⟨hs', hs'', e', e''⟩

theorem drop_prefix {a bs : List Bytes} {k : Nat} (hk : k ≤ bs.length) (h : a <+: bs.drop k) : ∃ x y, bs = x ++ a ++ y ∧ x.length = k := by
  obtain ⟨t, ht⟩ := h
  exact ⟨bs.take k, t, by rw [List.append_assoc, ht, List.take_append_drop], by rw [List.length_take]; omega⟩

/-- **exactly**: whatever file a patch is applied to, it is applied if and only if, hunk after hunk, the lines before the hunk are at the line it says (the end of the
file if that is beyond it); the result is the file with the lines before replaced by the lines after, and otherwise nothing but `GIT_EAPPLYFAIL` is given. -/
theorem C47_exact {source : Bytes} {hs : List Hunk} {es : List (Nat × List Piece)} (he : List.Forall₂ (fun h e => Shows h.lines e.2 ∧ 0 ≤ h.newStart ∧ h.newStart < 2 ^ 31 ∧ e.1 = placeOf h) hs es) :
    (∀ out, (∃ hs', applyHunks (fun _ => 0) source hs = .ok (out, hs')) ↔ ∃ ls, Edits es (splitLines source) ls ∧ ls.flatten = out) ∧
    ((¬ ∃ ls, Edits es (splitLines source) ls) → applyHunks (fun _ => 0) source hs = .err EAPPLYFAIL) := by
  have gen : ∀ (hs : List Hunk) (es : List (Nat × List Piece)) (k : Nat) (im : List (Option Line)) (bs : List Bytes), Reads im bs →
      List.Forall₂ (fun h e => Shows h.lines e.2 ∧ 0 ≤ h.newStart ∧ h.newStart < 2 ^ 31 ∧ e.1 = placeOf h) hs es →
      (∀ ls, Edits es bs ls → ∃ st' hs', applyAll (fun _ => 0) k { image := im, skippedNew := 0, skippedOld := 0 } hs = .ok (st', hs') ∧ Reads st'.image ls) ∧
      (∀ st' hs', applyAll (fun _ => 0) k { image := im, skippedNew := 0, skippedOld := 0 } hs = .ok (st', hs') → ∃ ls, Edits es bs ls ∧ Reads st'.image ls) ∧
      ((¬ ∃ ls, Edits es bs ls) → applyAll (fun _ => 0) k { image := im, skippedNew := 0, skippedOld := 0 } hs = .err EAPPLYFAIL) := by
    intro hs
    induction hs with
    | nil =>
      intro es k im bs hr hf
      cases hf
      refine ⟨fun ls h => ?_, fun st' hs' h => ?_, fun h => absurd ⟨bs, .nil⟩ h⟩
      · cases h; exact ⟨_, [], rfl, hr⟩
      · cases h; exact ⟨bs, .nil, hr⟩
    | cons h hs ih =>
      intro es k im bs hr hf
      cases hf with
      | @cons _ e _ es h1 h2 =>
        obtain ⟨n, ps⟩ := e
        obtain ⟨hsh, hn1, hn2, hpl⟩ := h1
        dsimp only at hsh hpl
        have hline : lineNum { image := im, skippedNew := 0, skippedOld := 0 } h = n := by
          rw [hpl]
          unfold lineNum placeOf sizet
          by_cases hz : h.newStart = 0
          · rw [if_pos hz, if_neg (by omega)]
          · rw [if_neg hz, if_pos hz]
            dsimp only
            omega
        by_cases hp : before ps <+: bs.drop (min n bs.length)
        · obtain ⟨x, y, ex, lx⟩ := drop_prefix (Nat.min_le_right _ _) hp
          have hn : min (lineNum { image := im, skippedNew := 0, skippedOld := 0 } h) (x ++ before ps ++ y).length = x.length := by rw [hline, ← ex, lx]
          obtain ⟨im', lines', e1, hr', _⟩ := applyHunk_at (st := { image := im, skippedNew := 0, skippedOld := 0 }) hsh (by rw [← ex]; exact hr) hn
          obtain ⟨i1, i2, i3⟩ := ih es (k + 1) im' (x ++ after ps ++ y) hr' h2
          have step : applyAll (fun _ => 0) k { image := im, skippedNew := 0, skippedOld := 0 } (h :: hs) =
              applyAll (fun _ => 0) (k + 1) { image := im', skippedNew := 0, skippedOld := 0 } hs >>= fun s => .ok (s.1, { h with lines := lines' } :: s.2) := by
            rw [applyAll, e1, Res.bind_ok]
          rw [step]
          have inv : ∀ ls, Edits ((n, ps) :: es) bs ls ↔ Edits es (x ++ after ps ++ y) ls := by
            intro ls
            constructor
            · intro hE
              generalize hb : bs = bs' at hE
              cases hE with
              | @cons _ _ _ a b _ ha hE =>
                have la : a.length = x.length := by rw [ha, lx, hb]
                have ee : a ++ before ps ++ b = x ++ before ps ++ y := by rw [← hb, ex]
                rw [List.append_assoc, List.append_assoc] at ee
                obtain ⟨rfl, e3⟩ := List.append_inj ee la
                have e3 := List.append_cancel_left e3
                subst e3
                exact hE
            · intro hE
              rw [ex]
              exact .cons (by rw [← ex, lx]) hE
          refine ⟨fun ls hE => ?_, fun st' hs' heq => ?_, fun hno => ?_⟩
          · obtain ⟨st', hs', e2, hr2⟩ := i1 ls ((inv ls).mp hE)
            exact ⟨st', _, by rw [e2, Res.bind_ok], hr2⟩
          · cases ea : applyAll (fun _ => 0) (k + 1) { image := im', skippedNew := 0, skippedOld := 0 } hs with
            | ok r =>
              rw [ea, Res.bind_ok] at heq
              have heq := Res.ok.inj heq
              obtain ⟨ls, hE, hr2⟩ := i2 r.1 r.2 (by rw [ea])
              have : r.1 = st' := congrArg Prod.fst heq
              exact ⟨ls, (inv ls).mpr hE, by rw [← this]; exact hr2⟩
            | err _ => rw [ea] at heq; cases heq
            | ub => rw [ea] at heq; cases heq
          · rw [i3 (fun ⟨ls, hE⟩ => hno ⟨ls, (inv ls).mpr hE⟩)]
            rfl
        · obtain ⟨lines', _, _, e1⟩ := applyHunk_eq (st := { image := im, skippedNew := 0, skippedOld := 0 }) hsh hr
          rw [hline, if_neg hp] at e1
          have step : applyAll (fun _ => 0) k { image := im, skippedNew := 0, skippedOld := 0 } (h :: hs) = .err EAPPLYFAIL := by
            rw [applyAll, e1]
            rfl
          have none : ∀ ls, ¬ Edits ((n, ps) :: es) bs ls := by
            intro ls hE
            generalize hb : bs = bs' at hE
            cases hE with
            | @cons _ _ _ a b _ ha hE =>
              apply hp
              rw [hb, ← ha, List.append_assoc, List.drop_left]
              exact List.prefix_append _ _
          rw [step]
          exact ⟨fun ls hE => absurd hE (none ls), fun st' hs' h => (by cases h), fun _ => rfl⟩
  obtain ⟨g1, g2, g3⟩ := gen hs es 0 (imageOf source) (splitLines source) (imageOf_reads (splitLines_lines source)) he
  refine ⟨fun out => ⟨fun ⟨hs', h⟩ => ?_, fun ⟨ls, hE, hfl⟩ => ?_⟩, fun hno => ?_⟩
  · unfold applyHunks at h
    cases ea : applyAll (fun _ => 0) 0 { image := imageOf source, skippedNew := 0, skippedOld := 0 } hs with
    | ok r =>
      obtain ⟨ls, hE, hr⟩ := g2 r.1 r.2 (by rw [ea])
      rw [ea, Res.bind_ok, render_eq hr, Res.bind_ok] at h
      exact ⟨ls, hE, congrArg Prod.fst (Res.ok.inj h)⟩
    | err _ => rw [ea] at h; cases h
    | ub => rw [ea] at h; cases h
  · obtain ⟨st', hs', e, hr⟩ := g1 ls hE
    exact ⟨hs', by unfold applyHunks; rw [e, Res.bind_ok, render_eq hr, Res.bind_ok, hfl]⟩
  · unfold applyHunks
    rw [g3 hno]
    rfl

/-- **safe**: whatever patch text without NUL bytes is read, applying what was read to any file with any answers, once, never reads memory it must not read. -/
theorem C47_safe {text rest source : Bytes} {hs : List Hunk} (answers : Nat → Int) (hz : 0 ∉ text) (hp : parsePatch text = .ok (hs, rest)) : applyHunks answers source hs ≠ .ub := by
  have hf := parseHunks_fresh _ _ _ _ hz hp
  unfold applyHunks
  rcases applyAll_safe answers hs 0 { image := imageOf source, skippedNew := 0, skippedOld := 0 } _ (imageOf_reads (splitLines_lines source)) hf with ⟨e, he⟩ | ⟨r, bs, he, hr⟩
  · rw [he]; intro h; cases h
  · rw [he, Res.bind_ok, render_eq hr, Res.bind_ok]; intro h; cases h

/-- A patch that deletes a file leaves nothing of it. -/
theorem C47_deleted {inflate : Bytes → Res Bytes} {answers : Nat → Int} {source out : Bytes} {body : Body} (h : applyPatch inflate answers source true body = .ok out) : out = [] := by
  unfold applyPatch at h
  obtain ⟨a, _, h⟩ := bind_inv h
  split at h
  · cases h
  · cases h
    rename_i hn
    exact List.length_eq_zero_iff.mp (by simpa using hn)

/-- one direction of a binary patch takes `src` to `out`: without data nothing changes; otherwise the data inflates to the announced length, and is the result itself or a
delta against `src` that is applied -/
def Takes (inflate : Bytes → Res Bytes) (f : BinaryFile) (src out : Bytes) : Prop :=
  (f.data = [] ∧ out = src) ∨
  (f.data ≠ [] ∧ ∃ d, inflate f.data = .ok d ∧ d.length = f.inflatedLen ∧ ((f.type = .literal ∧ out = d) ∨ (f.type = .delta ∧ Delta.apply src d = .ok out)))

theorem takes_iff {inflate : Bytes → Res Bytes} {f : BinaryFile} {src out : Bytes} : applyBinaryDelta inflate src f = .ok out ↔ Takes inflate f src out := by
  unfold applyBinaryDelta Takes
  by_cases hd : f.data = []
  · rw [if_pos (by rw [hd]; rfl)]
    constructor
    · intro h; cases h; exact .inl ⟨hd, rfl⟩
    · rintro (⟨-, rfl⟩ | ⟨h, -⟩)
      · rfl
      · exact absurd hd h
  · rw [if_neg (fun h => hd (List.length_eq_zero_iff.mp h))]
    constructor
    · intro h
      obtain ⟨d, h1, h⟩ := bind_inv h
      split at h
      · cases h
      · rename_i hl
        refine .inr ⟨hd, d, h1, by simpa using hl, ?_⟩
        cases ht : f.type with
        | delta => rw [ht] at h; exact .inr ⟨rfl, h⟩
        | literal => rw [ht] at h; cases h; exact .inl ⟨rfl, rfl⟩
        | none => rw [ht] at h; cases h
    · rintro (⟨h, -⟩ | ⟨-, d, h1, h2, h3⟩)
      · exact absurd h hd
      · rw [h1, Res.bind_ok, if_neg (by simpa using h2)]
        rcases h3 with ⟨ht, rfl⟩ | ⟨ht, h⟩
        · rw [ht]
        · rw [ht]; exact h

/-- A binary patch with data is applied only to the file it was made from: the result is what the forward part gives and the reverse part takes it back to the source. -/
theorem C47_binary {inflate : Bytes → Res Bytes} {source out : Bytes} {b : Binary} :
    applyBinary inflate source b = .ok out ∧ (b.oldFile.data ≠ [] ∨ b.newFile.data ≠ []) ↔
    b.containsData = true ∧ (b.oldFile.data ≠ [] ∨ b.newFile.data ≠ []) ∧ Takes inflate b.newFile source out ∧ Takes inflate b.oldFile out source := by
  rw [← takes_iff, ← takes_iff]
  constructor
  · rintro ⟨h, hd⟩
    unfold applyBinary at h
    split at h
    · cases h
    · rename_i hc
      rw [if_neg (by
        rintro ⟨h1, h2⟩
        rcases hd with h | h
        · exact h (List.length_eq_zero_iff.mp h1)
        · exact h (List.length_eq_zero_iff.mp h2))] at h
      obtain ⟨o, h1, h⟩ := bind_inv h
      obtain ⟨r, h2, h⟩ := bind_inv h
      split at h
      · cases h
      · rename_i hr
        cases h
        refine ⟨by simpa using hc, hd, h1, ?_⟩
        rw [h2]
        by_cases he : source = r
        · rw [he]
        · exact absurd (.inr he) hr
  · rintro ⟨hc, hd, h1, h2⟩
    refine ⟨?_, hd⟩
    unfold applyBinary
    rw [if_neg (by simp [hc]), if_neg, h1, Res.bind_ok, h2, Res.bind_ok, if_neg (by simp)]
    rintro ⟨h1, h2⟩
    rcases hd with h | h
    · exact h (List.length_eq_zero_iff.mp h1)
    · exact h (List.length_eq_zero_iff.mp h2)

/-! ## Where the code does not do it -/

/-- Without context lines, a hunk that only removes lines is refused on the very file it was made from (unless it is at its beginning): the number it is looked for at is one too small. -/
theorem C47_context_zero : ∃ (steps : List Step) (tail : List Bytes) (old new : Bytes) (hs : List Hunk), Lines (scriptOld steps tail) old ∧ Lines (scriptNew steps tail) new ∧
    emitDiff 0 0 (fun _ => []) (scriptOld steps tail) (scriptNew steps tail) (changesOf 0 0 steps) = .ok hs ∧ applyHunks (fun _ => 0) old hs = .err EAPPLYFAIL := by
  refine ⟨[{ same := [b!"a\n"], del := [b!"b\n"], add := [] }], [b!"c\n"], b!"a\nb\nc\n", b!"a\nc\n",
    [{ oldStart := 2, oldLines := 1, newStart := 1, newLines := 0, header := b!"@@ -2 +1,0 @@\n", lines := [{ origin := .deletion, buf := b!"b\n", len := 2 }] }], ?_, ?_, ?_, ?_⟩
  · exact splitLines_lines b!"a\nb\nc\n"
  · exact splitLines_lines b!"a\nc\n"
  · unfold emitDiff changesOf; simp [changesOf, emitDiff, getHunk]; decide +kernel
  · decide +kernel

/-- A NUL byte in a line of a patch makes `git_apply` read beyond the copy of that line (a diff that looks like text may contain it: only the first 8000 bytes of a file are looked at). -/
theorem C47_nul_overread : ∃ (text : Bytes) (hs : List Hunk), parsePatch text = .ok (hs, []) ∧ applyHunks (fun _ => 0) b!"a\nb\n" hs = .ub := by
  exact ⟨b!"@@ -1 +1 @@\n-a\n+" ++ [0] ++ b!"bc\n", _, rfl, by decide +kernel⟩

/-- An empty line followed by a marker in a patch: applying what was read once works, applying it a second time reads the byte before the line. -/
theorem C47_twice_ub : ∃ (text : Bytes) (hs hs' : List Hunk) (out : Bytes), 0 ∉ text ∧ parsePatch text = .ok (hs, []) ∧ applyHunks (fun _ => 0) b!"a\n" hs = .ok (out, hs') ∧
    applyHunks (fun _ => 0) b!"a\n" hs' = .ub := by
  exact ⟨b!"@@ -1 +1 @@\n-a\n+\n\\ No newline at end of file\n", _, _, _, by decide +kernel, rfl, rfl, by decide +kernel⟩

/-- Applying a patch changes it: printed before, it is the text that was read, and printed afterwards it is another text that is refused on the same file. -/
theorem C47_print_after : ∃ (text text' out : Bytes) (hs hs' hs2 : List Hunk), parsePatch text = .ok (hs, []) ∧ printHunks hs = .ok text ∧
    applyHunks (fun _ => 0) b!"a\nb" hs = .ok (out, hs') ∧ printHunks hs' = .ok text' ∧ parsePatch text' = .ok (hs2, []) ∧ applyHunks (fun _ => 0) b!"a\nb" hs2 = .err EAPPLYFAIL := by
  exact ⟨b!"@@ -1,2 +1,2 @@\n-a\n+c\n b\n\\ No newline at end of file\n", b!"@@ -1,2 +1,2 @@\n-a\n+c\n b\\ No newline at end of file\n", _, _, _, _, rfl, by decide +kernel, rfl, by decide +kernel, rfl, by decide +kernel⟩

/-- A binary patch that says it contains data and has none for either side makes any file empty. -/
theorem C47_binary_empty (inflate : Bytes → Res Bytes) (source : Bytes) (t t' : BinaryType) (n n' : Nat) :
    applyBinary inflate source { containsData := true, oldFile := { type := t, data := [], inflatedLen := n }, newFile := { type := t', data := [], inflatedLen := n' } } = .ok [] := rfl

/-! ## The hypotheses are met -/

/-- a script of two changes, far from each other, at the end of which only the new file ends with a newline -/
def sampleSteps : List Step :=
  [{ same := [b!"a\n"], del := [b!"b\n", b!"c\n"], add := [b!"B\n"] }, { same := [b!"1\n", b!"2\n", b!"3\n", b!"4\n", b!"5\n"], del := [b!"z"], add := [b!"z\n", b!"y\n"] }]

example : Lines (scriptOld sampleSteps []) b!"a\nb\nc\n1\n2\n3\n4\n5\nz" := splitLines_lines b!"a\nb\nc\n1\n2\n3\n4\n5\nz"
example : Lines (scriptNew sampleSteps []) b!"a\nB\n1\n2\n3\n4\n5\nz\ny\n" := splitLines_lines b!"a\nB\n1\n2\n3\n4\n5\nz\ny\n"
example : (∀ s ∈ sampleSteps, s.del ≠ [] ∨ s.add ≠ []) ∧ ∀ s ∈ sampleSteps.tail, s.same ≠ [] := by decide +kernel

/-- the hunks of this script with two lines of context -/
def sampleHunks : List Hunk :=
  [{ oldStart := 1, oldLines := 5, newStart := 1, newLines := 4, header := b!"@@ -1,5 +1,4 @@\n", lines := emitPieces [.keep b!"a\n", .del b!"b\n", .del b!"c\n", .add b!"B\n", .keep b!"1\n", .keep b!"2\n"] },
   { oldStart := 7, oldLines := 3, newStart := 6, newLines := 4, header := b!"@@ -7,3 +6,4 @@ f\n", lines := emitPieces [.keep b!"4\n", .keep b!"5\n", .del b!"z", .add b!"z\n", .add b!"y\n"] }]

example : emitDiff 2 0 (fun c => if c.i1 = 8 then b!"f" else []) (scriptOld sampleSteps []) (scriptNew sampleSteps []) (changesOf 0 0 sampleSteps) = .ok sampleHunks := by
  simp [sampleSteps, changesOf, emitDiff, getHunk]
  decide +kernel

example : printHunks sampleHunks = .ok b!"@@ -1,5 +1,4 @@\n a\n-b\n-c\n+B\n 1\n 2\n@@ -7,3 +6,4 @@ f\n 4\n 5\n-z\n\\ No newline at end of file\n+z\n+y\n" := by decide +kernel

/-- only the second hunk is applied -/
example : ∃ hs, applyHunks (fun k => if k = 0 then 1 else 0) b!"a\nb\nc\n1\n2\n3\n4\n5\nz" sampleHunks = .ok (b!"a\nb\nc\n1\n2\n3\n4\n5\nz\ny\n", hs) := ⟨_, rfl⟩

/-- to another file it is not applied -/
example : applyHunks (fun _ => 0) b!"a\nb\nc\n1\n2\n3\n4\n5\nx" sampleHunks = .err EAPPLYFAIL := by decide +kernel

example : ∃ out, applyBinary (fun b => .ok b) b!"abc" { containsData := true, oldFile := { type := .literal, data := b!"abc", inflatedLen := 3 }, newFile := { type := .literal, data := b!"xy", inflatedLen := 2 } } = .ok out ∧ out = b!"xy" := by
  exact ⟨_, rfl, by decide +kernel⟩

end Verif.Patch
