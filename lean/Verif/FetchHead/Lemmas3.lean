import Verif.FetchHead.Lemmas2
/-! # The format of FETCH_HEAD -/
namespace Verif.FetchHead
open Spec (Ref IsId mergeText kinds fullName Line File)

theorem mapM_hex_chars {t : Bytes} {vs : List UInt8} (h : t.mapM Oid.Spec.hexVal = some vs) : ∀ c ∈ t, (Oid.Spec.hexVal c).isSome := by
  induction t generalizing vs with
  | nil => simp
  | cons a t ih =>
    rw [List.mapM_cons] at h
    cases ha : Oid.Spec.hexVal a with
    | none => rw [ha] at h; cases h
    | some v =>
      rw [ha] at h
      cases ht : t.mapM Oid.Spec.hexVal with
      | none => rw [ht] at h; cases h
      | some ws =>
        intro c hc
        rcases List.mem_cons.mp hc with rfl | hc
        · rw [ha]; rfl
        · exact ih ht c hc

theorem isId_tab {size : Nat} {t id : Bytes} (h : IsId size t id) : c!"\t" ∉ t := by
  intro hc
  have := mapM_hex_chars h.2 _ hc
  revert this; decide

theorem parseOid_iff (size : Nat) (h0 : 0 < size) (t id : Bytes) (hz : (0 : UInt8) ∉ t) : parseOid size t = .ok id ↔ IsId size t id := by
  unfold parseOid IsId
  by_cases hl : t.length ≠ 2 * size
  · rw [if_pos hl]
    constructor
    · intro h; cases h
    · rintro ⟨h, _⟩; exact absurd h hl
  · rw [if_neg hl]
    have hl : t.length = 2 * size := by omega
    have hfrom := Oid.C02_from_string size h0 t [] (by intro c hc; rintro rfl; exact hz hc) id (by simp; omega)
    rw [← hfrom]
    cases hq : Oid.fromString size (t ++ [0]) <;> simp

theorem strstrQuote_iff (s n r : Bytes) : strstrQuote s = some (n, r) ↔ s = n ++ r ∧ b!"' " <+: r ∧ ¬ b!"' " <:+: n ++ b!"'" := by
  induction s generalizing n r with
  | nil =>
    unfold strstrQuote
    constructor
    · intro h; cases h
    · rintro ⟨h1, h2, _⟩
      have := List.append_eq_nil_iff.mp h1.symm
      rw [this.2] at h2; simp at h2
  | cons c s ih =>
    unfold strstrQuote
    by_cases hp : b!"' ".isPrefixOf (c :: s) = true
    · rw [if_pos hp]
      have hp' := List.isPrefixOf_iff_prefix.mp hp
      constructor
      · intro h
        cases h
        exact ⟨rfl, hp', by decide⟩
      · rintro ⟨h1, h2, h3⟩
        cases n with
        | nil => rw [h1]; rfl
        | cons a n =>
          exfalso
          apply h3
          obtain ⟨k, hk⟩ := hp'
          rw [h1] at hk
          cases n with
          | nil =>
            -- the second character would be the quote that begins `r`
            obtain ⟨k', hk'⟩ := h2
            rw [← hk'] at hk
            simp at hk
          | cons b n =>
            simp only [List.cons_append, List.cons.injEq] at hk
            obtain ⟨rfl, rfl, _⟩ := hk
            exact ⟨[], n ++ b!"'", by simp⟩
    · rw [if_neg hp]
      constructor
      · intro h
        cases hs : strstrQuote s with
        | none => rw [hs] at h; cases h
        | some p =>
          obtain ⟨n', r'⟩ := p
          rw [hs] at h
          simp only [Option.map_some, Option.some.injEq, Prod.mk.injEq] at h
          obtain ⟨rfl, rfl⟩ := h
          obtain ⟨e, h2, h3⟩ := (ih n' r').mp hs
          refine ⟨by rw [e]; rfl, h2, ?_⟩
          intro hin
          rw [List.cons_append, List.infix_cons_iff] at hin
          rcases hin with hin | hin
          · apply hp
            rw [List.isPrefixOf_iff_prefix]
            obtain ⟨k, hk⟩ := hin
            rw [e]
            cases n' with
            | nil => simp at hk
            | cons b n' =>
              simp only [List.cons_append, List.nil_append, List.cons.injEq] at hk
              obtain ⟨rfl, rfl, _⟩ := hk
              exact ⟨n' ++ r', by simp⟩
          · exact h3 hin
      · rintro ⟨h1, h2, h3⟩
        cases n with
        | nil =>
          exfalso; apply hp
          rw [List.isPrefixOf_iff_prefix, h1]; exact h2
        | cons a n =>
          simp only [List.cons_append, List.cons.injEq] at h1
          obtain ⟨rfl, rfl⟩ := h1
          have := (ih n r).mpr ⟨rfl, h2, fun hin => h3 (by rw [List.cons_append]; exact List.infix_cons hin)⟩
          rw [this]; rfl

theorem splitDesc_none (d : Bytes) : splitDesc d = none ↔ ∀ k ∈ kinds, ¬ k.1 ++ b!"'" <+: d := by
  unfold splitDesc kinds
  simp only [List.mem_cons, List.not_mem_nil, or_false, forall_eq_or_imp, forall_eq, ← List.isPrefixOf_iff_prefix]
  simp only [List.cons_append, List.nil_append]
  constructor
  · intro h
    split at h
    · cases h
    · split at h
      · cases h
      · split at h
        · cases h
        · rename_i h1 h2 h3; exact ⟨h1, h2, h3⟩
  · rintro ⟨h1, h2, h3⟩
    rw [if_neg h1, if_neg h2, if_neg h3]

theorem splitDesc_some (d dir rest : Bytes) : splitDesc d = some (dir, rest) ↔ ∃ word, (word, dir) ∈ kinds ∧ d = word ++ b!"'" ++ rest := by
  have hdrop : ∀ p : Bytes, p.isPrefixOf d = true → d = p ++ d.drop p.length := by
    intro p hp
    obtain ⟨k, rfl⟩ := List.isPrefixOf_iff_prefix.mp hp
    rw [List.drop_left]
  unfold splitDesc
  constructor
  · intro h
    split at h
    · rename_i hp; cases h
      exact ⟨b!"branch ", by decide, hdrop _ hp⟩
    · split at h
      · rename_i hp; cases h
        exact ⟨b!"tag ", by decide, hdrop _ hp⟩
      · split at h
        · rename_i hp; cases h
          exact ⟨[], by decide, hdrop _ hp⟩
        · cases h
  · rintro ⟨word, hk, rfl⟩
    simp only [kinds, List.mem_cons, Prod.mk.injEq, List.not_mem_nil, or_false] at hk
    rcases hk with ⟨rfl, rfl⟩ | ⟨rfl, rfl⟩ | ⟨rfl, rfl⟩
    · rw [if_pos (by simp [List.isPrefixOf])]; simp [headsDir]
    · rw [if_neg (by simp [List.isPrefixOf]), if_pos (by simp [List.isPrefixOf])]; simp [tagsDir]
    · rw [if_neg (by simp [List.isPrefixOf]), if_neg (by simp [List.isPrefixOf]), if_pos (by simp [List.isPrefixOf])]; simp

theorem orNull_fullName {word dir : Bytes} (hk : (word, dir) ∈ kinds) (name : Bytes) : orNull (joinName dir name) = fullName dir name := by
  unfold orNull joinName fullName
  simp only [kinds, List.mem_cons, Prod.mk.injEq, List.not_mem_nil, or_false] at hk
  rcases hk with ⟨rfl, rfl⟩ | ⟨rfl, rfl⟩ | ⟨rfl, rfl⟩
  · simp
  · simp
  · cases name <;> simp

theorem parseDesc_iff (id : Bytes) (m : Bool) (d : Bytes) (r : Ref) : parseDesc id m d = .ok r ↔
    ((∀ k ∈ kinds, ¬ k.1 ++ b!"'" <+: d) ∧ r = ⟨id, m, none, some d⟩) ∨
    (∃ word dir name url, (word, dir) ∈ kinds ∧ d = word ++ b!"'" ++ name ++ b!"' of " ++ url ∧ ¬ b!"' " <:+: name ++ b!"'" ∧
      r = ⟨id, m, fullName dir name, some url⟩) := by
  unfold parseDesc
  cases hs : splitDesc d with
  | none =>
    have hn := (splitDesc_none d).mp hs
    dsimp only
    constructor
    · intro h; cases h; exact .inl ⟨hn, rfl⟩
    · rintro (⟨_, rfl⟩ | ⟨word, dir, name, url, hk, rfl, _⟩)
      · rfl
      · exfalso; exact hn _ hk ⟨name ++ b!"' of " ++ url, by simp⟩
  | some p =>
    obtain ⟨dir, rest⟩ := p
    obtain ⟨word, hk, hd⟩ := (splitDesc_some d dir rest).mp hs
    dsimp only
    constructor
    · intro h
      cases hq : strstrQuote rest with
      | none => rw [hq] at h; cases h
      | some p =>
        obtain ⟨name, tail⟩ := p
        rw [hq] at h
        dsimp only at h
        obtain ⟨q1, q2, q3⟩ := (strstrQuote_iff _ _ _).mp hq
        split at h
        · rename_i hof
          obtain ⟨url, rfl⟩ := List.isPrefixOf_iff_prefix.mp hof
          cases h
          refine .inr ⟨word, dir, name, url, hk, by rw [hd, q1]; simp, q3, ?_⟩
          rw [orNull_fullName hk]; simp
        · cases h
    · rintro (⟨hn, _⟩ | ⟨word', dir', name, url, hk', hd', hq, rfl⟩)
      · exfalso; exact hn _ hk ⟨rest, by rw [hd]⟩
      · have := (splitDesc_some d dir' (name ++ b!"' of " ++ url)).mpr ⟨word', hk', by rw [hd']; simp⟩
        rw [hs] at this
        simp only [Option.some.injEq, Prod.mk.injEq] at this
        obtain ⟨rfl, rfl⟩ := this
        have hst : strstrQuote (name ++ b!"' of " ++ url) = some (name, b!"' of " ++ url) :=
          (strstrQuote_iff _ _ _).mpr ⟨by simp, by simp, hq⟩
        rw [hst]
        dsimp only
        rw [if_pos (by simp [List.isPrefixOf]), orNull_fullName hk']
        simp

theorem parseRest_iff (id rest : Bytes) (r : Ref) : parseRest id rest = .ok r ↔
    ∃ m d, rest = mergeText m ++ b!"\t" ++ d ∧ parseDesc id m d = .ok r := by
  unfold parseRest
  constructor
  · intro h
    cases hs : strsep rest c!"\t" with
    | none => rw [hs] at h; cases h
    | some p =>
      obtain ⟨mt, d⟩ := p
      obtain ⟨e, _⟩ := strsep_some hs
      rw [hs] at h
      dsimp only at h
      split at h
      · rename_i h1; exact ⟨true, d, by rw [e, h1]; simp [mergeText], h⟩
      · split at h
        · rename_i h1; exact ⟨false, d, by rw [e, h1]; simp [mergeText], h⟩
        · cases h
  · rintro ⟨m, d, rfl, h⟩
    have e : mergeText m ++ b!"\t" ++ d = mergeText m ++ c!"\t" :: d := by simp
    rw [e, strsep_found (by cases m <;> decide)]
    dsimp only
    cases m with
    | true => rw [if_pos (by decide)]; exact h
    | false => rw [if_neg (by decide), if_pos (by decide)]; exact h

/-- the reader understands exactly the lines of the format -/
theorem parse_iff (size : Nat) (h0 : 0 < size) (prev : Bool) (l : Bytes) (hz : (0 : UInt8) ∉ l) (r : Ref) :
    parse size l prev = .ok r ↔ Line size prev l r := by
  have tail : ∀ t id rest, IsId size t id → rest ≠ [] → (parse size (t ++ c!"\t" :: rest) prev = .ok r ↔ parseRest id rest = .ok r) := by
    intro t id rest hid hne
    have hzt : (0 : UInt8) ∉ t := by
      intro hc; have := mapM_hex_chars hid.2 _ hc; revert this; decide
    unfold parse
    rw [if_neg (by simp), strsep_found (isId_tab hid)]
    dsimp only
    rw [(parseOid_iff size h0 t id hzt).mpr hid, Res.bind_ok, if_neg hne]
  constructor
  · intro h
    by_cases hl : l = []
    · unfold parse at h; rw [if_pos hl] at h; cases h
    · cases hs : strsep l c!"\t" with
      | none =>
        unfold parse at h
        rw [if_neg hl, hs] at h
        dsimp only at h
        rcases parseOid_total size l with ⟨id, hid⟩ | hid
        · rw [hid, Res.bind_ok] at h
          cases h
          exact .id _ _ ((parseOid_iff size h0 l id hz).mp hid)
        · rw [hid] at h; cases h
      | some p =>
        obtain ⟨t, rest⟩ := p
        obtain ⟨e, _⟩ := strsep_some hs
        have hzt : (0 : UInt8) ∉ t := fun hc => hz (by rw [e]; simp [hc])
        rcases parseOid_total size t with ⟨id, hid⟩ | hid
        · have hisid := (parseOid_iff size h0 t id hzt).mp hid
          by_cases hr : rest = []
          · unfold parse at h
            rw [if_neg hl, hs] at h
            dsimp only at h
            rw [hid, Res.bind_ok, if_pos hr] at h
            cases h
            rw [e, hr]
            exact .tab _ _ hisid
          · rw [e] at h
            obtain ⟨m, d, e2, h2⟩ := (parseRest_iff id rest r).mp ((tail t id rest hisid hr).mp h)
            rcases (parseDesc_iff id m d r).mp h2 with ⟨h3, rfl⟩ | ⟨word, dir, name, url, h3, h4, h5, rfl⟩
            · have := Line.plain (size := size) (prev := prev) t id m d hisid h3
              rw [e, e2]; simpa using this
            · have := Line.named (size := size) (prev := prev) t id m word dir name url hisid h3 h5
              rw [e, e2, h4]; simpa using this
        · unfold parse at h
          rw [if_neg hl, hs] at h
          dsimp only at h
          rw [hid] at h; cases h
  · intro h
    cases h with
    | id t id hid =>
      unfold parse
      have hne : l ≠ [] := by rintro rfl; have := hid.1; simp at this; omega
      rw [if_neg hne, strsep_none (isId_tab hid)]
      dsimp only
      rw [(parseOid_iff size h0 l id hz).mpr hid]; rfl
    | tab t id hid =>
      have hzt : (0 : UInt8) ∉ t := by
        intro hc; have := mapM_hex_chars hid.2 _ hc; revert this; decide
      unfold parse
      rw [if_neg (by simp), strsep_found (isId_tab hid)]
      dsimp only
      rw [(parseOid_iff size h0 t id hzt).mpr hid]; rfl
    | plain t id m url hid hk =>
      have e : t ++ b!"\t" ++ mergeText m ++ b!"\t" ++ url = t ++ c!"\t" :: (mergeText m ++ b!"\t" ++ url) := by simp
      rw [e, tail t id _ hid (by simp), parseRest_iff]
      exact ⟨m, url, rfl, (parseDesc_iff _ _ _ _).mpr (.inl ⟨hk, rfl⟩)⟩
    | named t id m word dir name url hid hk hq =>
      have e : t ++ b!"\t" ++ mergeText m ++ b!"\t" ++ word ++ b!"'" ++ name ++ b!"' of " ++ url =
          t ++ c!"\t" :: (mergeText m ++ b!"\t" ++ (word ++ b!"'" ++ name ++ b!"' of " ++ url)) := by simp
      rw [e, tail t id _ hid (by simp), parseRest_iff]
      exact ⟨m, _, rfl, (parseDesc_iff _ _ _ _).mpr (.inr ⟨word, dir, name, url, hk, rfl, hq, rfl⟩)⟩

theorem loop_file (size : Nat) (h0 : 0 < size) (last : Bytes) (hlast : c!"\n" ∉ last) : ∀ (ls : List Bytes) (prev : Bool),
    (∀ l ∈ ls, (0 : UInt8) ∉ l ∧ c!"\n" ∉ l) →
    ∃ es c, foreachLoop size noStop (ls.length + 1) (ls.flatMap (fun l => l ++ b!"\n") ++ last) prev = .ok (es, c) ∧ File size prev ls last es c
  | [], prev, _ => by
    simp only [List.flatMap_nil, List.nil_append, List.length_nil]
    unfold foreachLoop
    rw [strsep_none hlast]
    dsimp only
    by_cases h : last = []
    · rw [if_pos h, h]; exact ⟨_, _, rfl, .done prev⟩
    · rw [if_neg h]; exact ⟨_, _, rfl, .noEol prev last h⟩
  | l :: ls, prev, hl => by
    have hl' := hl l (by simp)
    have e : (l :: ls).flatMap (fun l => l ++ b!"\n") ++ last = l ++ c!"\n" :: (ls.flatMap (fun l => l ++ b!"\n") ++ last) := by simp
    rw [e, List.length_cons]
    unfold foreachLoop
    rw [strsep_found hl'.2]
    dsimp only
    rcases parse_total size l prev with ⟨r, hr⟩ | hr
    · rw [hr]
      dsimp only
      rw [if_neg (by simp [noStop])]
      obtain ⟨es, c, h1, h2⟩ := loop_file size h0 last hlast ls r.isMerge (fun x hx => hl x (by simp [hx]))
      rw [h1]
      exact ⟨_, _, rfl, .good _ _ _ _ _ _ _ ((parse_iff size h0 prev l hl'.1 r).mp hr) h2⟩
    · rw [hr]
      refine ⟨_, _, rfl, .bad _ _ _ _ ?_⟩
      intro r hL
      rw [(parse_iff size h0 prev l hl'.1 r).mpr hL] at hr
      cases hr

end Verif.FetchHead
