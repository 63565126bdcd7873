import Verif.FetchHead.Model
import Verif.Oid.Props
import Verif.Sort.Props
/-! # Lines of FETCH_HEAD -/
namespace Verif.FetchHead
open Spec (Ref OneLine NameOk RefOk shown Before seen)

/-! ## The order -/

theorem refCmp_preorder : Sort.Spec.TotalPreorder refCmp := by
  constructor
  · intro a b
    unfold refCmp
    cases a.isMerge <;> cases b.isMerge <;> simp <;>
      cases a.name <;> cases b.name <;> simp <;> (rename_i x y; rw [bcmp_neg y x]; omega)
  · intro a b c h1 h2
    unfold refCmp at *
    revert h1 h2
    cases a.isMerge <;> cases b.isMerge <;> cases c.isMerge <;> simp <;>
      cases a.name <;> cases b.name <;> cases c.name <;> simp <;> exact bcmp_trans

theorem before_of_cmp {a b : Ref} (h : refCmp a b ≤ 0) : Before a b := by
  unfold refCmp at h
  unfold Before
  revert h
  cases a.isMerge <;> cases b.isMerge <;> simp <;>
    cases a.name <;> cases b.name <;> simp <;> intro h <;> exact bcmp_le.mp h

/-! ## Splitting -/

theorem strsep_found {a b : Bytes} {sep : UInt8} (h : sep ∉ a) : strsep (a ++ sep :: b) sep = some (a, b) := by
  unfold strsep
  have hp : ∀ x ∈ a, (decide (x ≠ sep)) = true := by
    intro x hx; simp; rintro rfl; exact h hx
  rw [dropWhile_append_stop _ a (sep :: b) hp (by simp), List.takeWhile_append_of_pos hp]
  simp

theorem strsep_some {s a b : Bytes} {sep : UInt8} (h : strsep s sep = some (a, b)) : s = a ++ sep :: b ∧ sep ∉ a := by
  unfold strsep at h
  split at h
  · cases h
  · rename_i x r he
    have hx : x = sep := by
      clear h
      induction s with
      | nil => simp at he
      | cons y s ih =>
        rw [List.dropWhile_cons] at he
        split at he
        · exact ih he
        · rename_i hy; cases he; simpa using hy
    subst hx
    cases h
    refine ⟨by rw [← he, List.takeWhile_append_dropWhile], ?_⟩
    intro hm
    induction s with
    | nil => simp at hm
    | cons y s ih =>
      rw [List.takeWhile_cons] at hm
      split at hm
      · rename_i hy
        rcases List.mem_cons.mp hm with hm | hm
        · subst hm; simp at hy
        · rw [List.dropWhile_cons, if_pos hy] at he
          exact ih he hm
      · simp at hm

theorem strsep_none {s : Bytes} {sep : UInt8} (h : sep ∉ s) : strsep s sep = none := by
  cases hs : strsep s sep with
  | none => rfl
  | some p => exact absurd (by rw [(strsep_some hs).1]; simp) h

theorem strstrQuote_found {n : Bytes} (rest : Bytes) (h : c!" " ∉ n) : strstrQuote (n ++ b!"' " ++ rest) = some (n, b!"' " ++ rest) := by
  induction n with
  | nil => simp [strstrQuote, List.isPrefixOf]
  | cons a n ih =>
    have hn : c!" " ∉ n := fun hm => h (by simp [hm])
    rw [List.cons_append, List.cons_append]
    unfold strstrQuote
    have : b!"' ".isPrefixOf (a :: (n ++ b!"' " ++ rest)) = false := by
      cases n with
      | nil => simp [List.isPrefixOf]
      | cons b n =>
        have : ¬ (32 : UInt8) = b := by rintro rfl; exact hn (by simp)
        simp [List.isPrefixOf, this]
    rw [if_neg (by rw [this]; exact Bool.false_ne_true), ih hn]
    rfl

/-! ## Ids -/

theorem digit_lt (n : Nat) (h : n < 16) : ∃ c, Oid.Spec.digit (UInt8.ofNat n) = c ∧ c ≠ 0 ∧ c ≠ 9 ∧ c ≠ 10 := by
  refine ⟨_, rfl, ?_⟩
  have : ∀ n : Fin 16, Oid.Spec.digit (UInt8.ofNat n.val) ≠ 0 ∧ Oid.Spec.digit (UInt8.ofNat n.val) ≠ 9 ∧ Oid.Spec.digit (UInt8.ofNat n.val) ≠ 10 := by
    decide +kernel
  exact this ⟨n, h⟩

theorem hex_chars (id : Bytes) : ∀ c ∈ Oid.Spec.hex id, c ≠ 0 ∧ c ≠ 9 ∧ c ≠ 10 := by
  intro c hc
  obtain ⟨v, hv, rfl⟩ := List.mem_map.mp hc
  have hlt := Oid.nibbles_lt id v hv
  obtain ⟨c, h1, h2⟩ := digit_lt v.toNat (by simpa [UInt8.lt_iff_toNat_lt] using hlt)
  rw [UInt8.ofNat_toNat] at h1
  rw [h1]; exact h2

theorem hex_length (id : Bytes) : (Oid.Spec.hex id).length = 2 * id.length := by simp

theorem parseOid_hex (id : Bytes) (h : id ≠ []) : parseOid id.length (Oid.Spec.hex id) = .ok id := by
  unfold parseOid
  obtain ⟨t, h1, _, h2⟩ := Oid.C02_roundtrip id h []
  rw [Oid.C02_fmt] at h1
  cases h1
  rw [if_neg (by rw [hex_length]; simp), h2]

theorem parseOid_total (size : Nat) (s : Bytes) : (∃ id, parseOid size s = .ok id) ∨ parseOid size s = .err (-1) := by
  unfold parseOid
  by_cases h : s.length ≠ 2 * size
  · rw [if_pos h]; exact .inr rfl
  · rw [if_neg h]
    have hl : s.length = 2 * size := by omega
    cases hf : Oid.fromString size (s ++ [0]) with
    | ok id => exact .inl ⟨id, rfl⟩
    | err e => exact .inr rfl
    | ub =>
      exfalso
      unfold Oid.fromString at hf
      have hp := (Oid.C02_from_prefix size (s ++ [0]) (2 * size) (by simp [hl])).2.2
      cases hq : Oid.fromPrefix size (s ++ [0]) (2 * size) with
      | ok id =>
        rw [hq, Res.bind_ok] at hf
        have : (s ++ [0])[2 * size]? = some 0 := by rw [← hl]; simp
        rw [this] at hf; simp at hf
      | err e => rw [hq] at hf; cases hf
      | ub => exact hp hq

theorem tostr_hex (id : Bytes) (h : 2 * id.length ≤ 64) : ∃ t, Oid.tostr id.length 65 (some id) = .ok t ∧ t.takeWhile (· ≠ 0) = Oid.Spec.hex id := by
  obtain ⟨out, h1, h2, _⟩ := Oid.C02_tostr id 65 (by omega)
  refine ⟨out, h1, ?_⟩
  rw [h2, List.take_of_length_le (by rw [hex_length]; omega)]
  rw [List.takeWhile_append_of_pos (by intro x hx; have := (hex_chars id x hx).1; simpa using this)]
  simp

/-! ## Writing and reading a line -/

theorem parseDesc_plain (oid u : Bytes) (m : Bool) (h1 : ¬ b!"'" <+: u) (h2 : ¬ b!"branch '" <+: u) (h3 : ¬ b!"tag '" <+: u) :
    parseDesc oid m u = .ok ⟨oid, m, none, some u⟩ := by
  unfold parseDesc splitDesc
  rw [if_neg (by rwa [List.isPrefixOf_iff_prefix]), if_neg (by rwa [List.isPrefixOf_iff_prefix]), if_neg (by rwa [List.isPrefixOf_iff_prefix])]

theorem parseDesc_named (oid u type word name : Bytes) (m : Bool) (hs : splitDesc (word ++ b!"'" ++ name ++ b!"' of " ++ u) = some (type, name ++ b!"' of " ++ u))
    (hn : c!" " ∉ name) : parseDesc oid m (word ++ b!"'" ++ name ++ b!"' of " ++ u) = .ok ⟨oid, m, orNull (joinName type name), some u⟩ := by
  unfold parseDesc
  rw [hs]
  dsimp only
  have e : name ++ b!"' of " ++ u = name ++ b!"' " ++ (b!"of " ++ u) := by simp
  rw [e, strstrQuote_found _ hn]
  dsimp only
  rw [if_pos (by simp [List.isPrefixOf])]
  simp

/-- the text between the id and the line feed -/
theorem parse_line (size : Nat) (oid : Bytes) (hs : oid.length = size) (ho : oid ≠ []) (m prev : Bool) (desc : Bytes) :
    parse size (Oid.Spec.hex oid ++ b!"\t" ++ (if m then [] else b!"not-for-merge") ++ b!"\t" ++ desc) prev = parseDesc oid m desc := by
  have e : Oid.Spec.hex oid ++ b!"\t" ++ (if m then [] else b!"not-for-merge") ++ b!"\t" ++ desc =
      Oid.Spec.hex oid ++ c!"\t" :: ((if m then [] else b!"not-for-merge") ++ c!"\t" :: desc) := by simp
  rw [e]
  unfold parse
  rw [if_neg (by simp), strsep_found (by intro h; exact (hex_chars oid _ h).2.1 rfl)]
  dsimp only
  subst hs
  rw [parseOid_hex oid ho, Res.bind_ok, if_neg (by simp)]
  unfold parseRest
  cases m with
  | true =>
    simp only [if_true, List.nil_append]
    have := strsep_found (a := []) (b := desc) (sep := c!"\t") (by simp)
    rw [List.nil_append] at this
    rw [this]; simp
  | false =>
    simp only [Bool.false_eq_true, if_false]
    rw [strsep_found (by decide)]
    dsimp only
    rw [if_neg (by decide), if_pos rfl]

/-- what is written for a reference is one line, and is read as what is shown of it -/
theorem write_read (size : Nat) (h0 : 0 < size) (h32 : size ≤ 32) (r : Ref) (hr : RefOk size r) :
    ∃ line, writeRef size r = .ok (line ++ b!"\n") ∧ OneLine line ∧ ∀ prev, parse size line prev = .ok (shown r) := by
  obtain ⟨oid, m, name, url⟩ := r
  obtain ⟨hoid, ⟨n, hn, hnok⟩, u, hu, hul, hhead⟩ := hr
  dsimp only at hoid hn hu hhead
  subst hn; subst hu
  have ho : oid ≠ [] := by rintro rfl; simp at hoid; omega
  obtain ⟨t, ht1, ht2⟩ := tostr_hex oid (by omega)
  unfold writeRef
  dsimp only
  rw [← hoid, ht1, Res.bind_ok, hoid]
  rw [ht2]
  have hhexL : OneLine (Oid.Spec.hex oid) := ⟨fun h => (hex_chars oid _ h).1 rfl, fun h => (hex_chars oid _ h).2.2 rfl⟩
  -- the three kinds of named lines
  have named : ∀ (word type short : Bytes), OneLine word → OneLine short → c!" " ∉ short →
      (∀ rest, splitDesc (word ++ b!"'" ++ rest) = some (type, rest)) → orNull (joinName type short) = some n → n ≠ b!"HEAD" →
      ∃ line, (Res.ok (lineFor (Oid.Spec.hex oid) m word short u) : Res Bytes) = .ok (line ++ b!"\n") ∧ OneLine line ∧
        ∀ prev, parse size line prev = .ok (shown ⟨oid, m, some n, some u⟩) := by
    intro word type short hw hsh hsp hsplit hj hne
    refine ⟨Oid.Spec.hex oid ++ b!"\t" ++ (if m then [] else b!"not-for-merge") ++ b!"\t" ++ (word ++ b!"'" ++ short ++ b!"' of " ++ u), ?_, ?_, ?_⟩
    · unfold lineFor; simp
    · have hm : OneLine (if m then [] else b!"not-for-merge") := by cases m <;> exact ⟨by decide, by decide⟩
      have hap : ∀ a b, OneLine a → OneLine b → OneLine (a ++ b) := fun a b ha hb =>
        ⟨fun h => (List.mem_append.mp h).elim ha.1 hb.1, fun h => (List.mem_append.mp h).elim ha.2 hb.2⟩
      have hT : OneLine b!"\t" := ⟨by decide, by decide⟩
      have hQ : OneLine b!"'" := ⟨by decide, by decide⟩
      have hO : OneLine b!"' of " := ⟨by decide, by decide⟩
      exact hap _ _ (hap _ _ (hap _ _ (hap _ _ hhexL hT) hm) hT) (hap _ _ (hap _ _ (hap _ _ (hap _ _ hw hQ) hsh) hO) hul)
    · intro prev
      rw [parse_line size oid hoid ho m prev]
      rw [parseDesc_named oid u type word short m ?_ hsp, hj]
      · unfold shown; rw [if_neg (by simpa using hne)]
      · have := hsplit (short ++ b!"' of " ++ u)
        simpa using this
  have hsub : ∀ k, OneLine (n.drop k) ∧ c!" " ∉ n.drop k := fun k =>
    ⟨⟨fun h => hnok.line.1 (List.mem_of_mem_drop h), fun h => hnok.line.2 (List.mem_of_mem_drop h)⟩, fun h => hnok.space (List.mem_of_mem_drop h)⟩
  have hjoin : ∀ dir : Bytes, dir ≠ [] → dir <+: n → ¬ (dir ++ b!"/") <+: n → orNull (joinName dir (n.drop dir.length)) = some n := by
    rintro dir hd ⟨k, rfl⟩ hsl
    rw [List.drop_left]
    unfold joinName
    rw [if_neg hd]
    have : k.dropWhile (· = c!"/") = k := by
      cases k with
      | nil => rfl
      | cons c k =>
        rw [List.dropWhile_cons_of_neg]
        intro hc
        apply hsl
        have : c = c!"/" := by simpa using hc
        subst this
        exact ⟨k, by simp⟩
    rw [this]
    unfold orNull
    rw [if_pos (by cases dir with
      | nil => exact absurd rfl hd
      | cons a b => simp)]
  unfold describe
  by_cases hh : headsDir.isPrefixOf n = true
  · rw [if_pos hh]
    have hp : headsDir <+: n := List.isPrefixOf_iff_prefix.mp hh
    refine named b!"branch " headsDir _ ⟨by decide, by decide⟩ (hsub _).1 (hsub _).2 ?_ (hjoin headsDir (by decide) hp hnok.heads) ?_
    · intro rest; unfold splitDesc; rw [if_pos (by simp [List.isPrefixOf])]; simp
    · rintro rfl; revert hh; decide
  · rw [if_neg hh]
    by_cases htg : tagsDir.isPrefixOf n = true
    · rw [if_pos htg]
      have hp : tagsDir <+: n := List.isPrefixOf_iff_prefix.mp htg
      refine named b!"tag " tagsDir _ ⟨by decide, by decide⟩ (hsub _).1 (hsub _).2 ?_ (hjoin tagsDir (by decide) hp hnok.tags) ?_
      · intro rest
        unfold splitDesc
        rw [if_neg (by simp [List.isPrefixOf]), if_pos (by simp [List.isPrefixOf])]; simp
      · rintro rfl; revert htg; decide
    · rw [if_neg htg]
      by_cases hd : n = b!"HEAD"
      · subst hd
        rw [if_pos rfl]
        obtain ⟨q1, q2, q3⟩ := hhead rfl
        refine ⟨Oid.Spec.hex oid ++ b!"\t" ++ (if true then [] else b!"not-for-merge") ++ b!"\t" ++ u, by simp, ?_, ?_⟩
        · constructor
          · intro h; simp at h; rcases h with h | h
            · exact hhexL.1 h
            · exact hul.1 h
          · intro h; simp at h; rcases h with h | h
            · exact hhexL.2 h
            · exact hul.2 h
        · intro prev
          rw [parse_line size oid hoid ho true prev, parseDesc_plain oid u true q1 q2 q3]
          rfl
      · rw [if_neg hd]
        refine named [] [] n ⟨by decide, by decide⟩ hnok.line hnok.space ?_ ?_ hd
        · intro rest
          unfold splitDesc
          rw [if_neg (by simp [List.isPrefixOf]), if_neg (by simp [List.isPrefixOf]), if_pos (by simp [List.isPrefixOf])]
          simp
        · unfold joinName orNull
          rw [if_pos rfl, if_pos (by cases n with
            | nil => exact absurd rfl hnok.nonempty
            | cons a b => simp)]

end Verif.FetchHead
