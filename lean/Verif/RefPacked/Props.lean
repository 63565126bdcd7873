import Verif.RefPacked.LemmasReload
/-! # C20: packed reference lookup -/
namespace Verif.RefPacked
open Verif.RefPacked.Spec Verif.Oid.Spec Verif.Oid

/-- C20: in a packed-refs file whose records are sorted by name, the binary search of `packed_lookup` finds exactly the records
that are present, and returns the id and the peeled id of that record - whatever the comment lines, whatever the number of
records, whether or not they carry peeled ids, and whatever name is looked up. -/
theorem C20_lookup {size : Nat} (hs : 0 < size) (lines : List Bytes) (hl : ∀ l ∈ lines, (10 : UInt8) ∉ l) (recs : List Rec)
    (hv : ∀ r ∈ recs, r.Valid size) (hsort : recs.Pairwise (fun a b => a.name < b.name)) (name : Bytes) :
    (∀ oid peel, packedLookup size (file lines recs) name = .ok (oid, peel) ↔ ⟨name, oid, peel⟩ ∈ recs) ∧
    (packedLookup size (file lines recs) name = .err ENOTFOUND ↔ ∀ r ∈ recs, r.name ≠ name) := by
  rw [packedLookup_ok hs lines hl recs hv hsort name]
  have huniq : ∀ r ∈ recs, ∀ r' ∈ recs, r.name = r'.name → r = r' := by
    intro r hr r' hr' e
    obtain ⟨i, hi, hi'⟩ := List.mem_iff_getElem.mp hr
    obtain ⟨j, hj, hj'⟩ := List.mem_iff_getElem.mp hr'
    rcases Nat.lt_trichotomy i j with h | h | h
    · exact absurd (by rw [hi', hj']; exact e) (B.ne_of_lt (List.pairwise_iff_getElem.mp hsort i j hi hj h))
    · subst h; rw [← hi', ← hj']
    · exact absurd (by rw [hi', hj']; exact e.symm) (B.ne_of_lt (List.pairwise_iff_getElem.mp hsort j i hj hi h))
  cases hf : recs.find? (fun r => decide (r.name = name)) with
  | none =>
    have hn : ∀ r ∈ recs, r.name ≠ name := by simpa [List.find?_eq_none] using hf
    refine ⟨fun oid peel => ⟨by simp, fun h => absurd rfl (hn _ h)⟩, ⟨fun _ => hn, fun _ => rfl⟩⟩
  | some r =>
    have hmem := List.mem_of_find?_eq_some hf
    have hname : r.name = name := by simpa using List.find?_some hf
    refine ⟨fun oid peel => ⟨fun h => ?_, fun h => ?_⟩, ⟨by simp, fun h => absurd hname (h r hmem)⟩⟩
    · simp at h
      obtain ⟨h1, h2⟩ := h
      have : r = ⟨name, oid, peel⟩ := by cases r; simp_all
      rw [← this]; exact hmem
    · have := huniq _ hmem _ h hname
      subst this; rfl

/-- C20: whatever the file contains - truncated, unsorted, hostile - the search terminates and never reads outside the mapping. -/
theorem C20_lookup_safe (size : Nat) (b name : Bytes) : packedLookup size b name ≠ .ub := by
  unfold packedLookup
  obtain ⟨h1, h2⟩ := skipHeader_safe b (b.length + 1) 0 (by omega)
  refine res_bind_not_ub _ _ h1 ?_
  intro left _
  exact searchLoop_safe size b name _ left _ (Nat.le_refl _) (by omega)

/-- C20: the search used for files not flagged sorted loads the whole file; the id it returns is that of the last record with the
name, in whatever order the records are. -/
theorem C20_unsorted_lookup {size : Nat} (hs : 0 < size) (lines : List Bytes) (hl : ∀ l ∈ lines, (10 : UInt8) ∉ l ∧ (0 : UInt8) ∉ l)
    (recs : List Rec) (hv : ∀ r ∈ recs, r.Valid size) (ht : ∀ r ∈ recs, (0 : UInt8) ∉ r.name ∧ r.name.getLast? ≠ some 13) (name : Bytes) :
    (∀ oid, (∃ peel, unsortedLookup size (file lines recs) name = .ok (oid, peel)) ↔
      ∃ before r after, recs = before ++ r :: after ∧ r.name = name ∧ r.oid = oid ∧ ∀ x ∈ after, x.name ≠ name) ∧
    (unsortedLookup size (file lines recs) name = .err ENOTFOUND ↔ ∀ r ∈ recs, r.name ≠ name) := by
  unfold unsortedLookup
  rw [packedReload_ok hs lines hl recs hv ht]
  simp only [Res.bind_ok]
  have h := foldl_find recs name []
  simp only [List.find?_nil, Option.map_none, Option.or_none] at h
  generalize hc : (recs.foldl (fun c r => upsert c r.name r.oid r.peel) []).find? (fun r => decide (r.name = name)) = c at h
  have hrev : ∀ r, recs.reverse.find? (fun r => decide (r.name = name)) = some r →
      ∃ before after, recs = before ++ r :: after ∧ r.name = name ∧ ∀ x ∈ after, x.name ≠ name := by
    intro r hr
    obtain ⟨h1, as, bs, h2, h3⟩ := List.find?_eq_some_iff_append.mp hr
    refine ⟨bs.reverse, as.reverse, ?_, by simpa using h1, ?_⟩
    · have := congrArg List.reverse h2; simpa using this
    · intro x hx; simpa using h3 x (by simpa using hx)
  cases c with
  | none =>
    have hn : recs.reverse.find? (fun r => decide (r.name = name)) = none := by
      cases hh : recs.reverse.find? (fun r => decide (r.name = name)) with
      | none => rfl
      | some r => rw [hh] at h; simp at h
    have hn' : ∀ r ∈ recs, r.name ≠ name := by simpa [List.find?_eq_none] using hn
    refine ⟨fun oid => ⟨by simp, ?_⟩, ⟨fun _ => hn', fun _ => rfl⟩⟩
    rintro ⟨b, r, a, e, hname, _⟩
    exact absurd hname (hn' r (by simp [e]))
  | some p =>
    cases hh : recs.reverse.find? (fun r => decide (r.name = name)) with
    | none => rw [hh] at h; simp at h
    | some r =>
      rw [hh] at h
      simp at h
      obtain ⟨bf, af, e, hname, haf⟩ := hrev r hh
      refine ⟨fun oid => ⟨?_, ?_⟩, ⟨by simp, fun hno => absurd hname (hno r (by simp [e]))⟩⟩
      · rintro ⟨peel, hp⟩
        simp at hp
        exact ⟨bf, r, af, e, hname, by rw [← h]; exact hp.1, haf⟩
      · rintro ⟨bf', r', af', e', hname', hoid, haf'⟩
        have h2 : recs.reverse.find? (fun r => decide (r.name = name)) = some r' := by
          rw [e', List.reverse_append, List.reverse_cons, List.find?_append, List.find?_append]
          have : af'.reverse.find? (fun r => decide (r.name = name)) = none := by
            rw [List.find?_eq_none]; intro x hx; simpa using haf' x (by simpa using hx)
          rw [this]; simp [hname']
        rw [hh] at h2
        cases h2
        exact ⟨p.peel, by simp only; rw [h, hoid]⟩

/-- What `packed_find_peel` and the cache guarantee about the entries that are written. -/
structure Writable (size : Nat) (refs : List PackRef) : Prop where
  oid_len : ∀ r ∈ refs, r.oid.length = size
  peel_len : ∀ r ∈ refs, ∀ p, r.peel = some p → p.length = size
  name_ok : ∀ r ∈ refs, r.name ≠ [] ∧ (10 : UInt8) ∉ r.name
  sorted : refs.Pairwise (fun a b => a.name < b.name)

theorem packedContent_ok {size : Nat} (refs : List PackRef) (hw : Writable size refs) :
    packedContent size refs = .ok (file [packedHeader.drop 1] (refs.map (fun r => ⟨r.name, r.oid, r.peel⟩))) := by
  unfold packedContent
  rw [writeRefs_ok refs hw.oid_len hw.peel_len]
  simp only [Res.bind_ok]
  congr 1

theorem writable_valid {size : Nat} {refs : List PackRef} (hw : Writable size refs) :
    ∀ r ∈ refs.map (fun r => (⟨r.name, r.oid, r.peel⟩ : Rec)), r.Valid size := by
  intro r hr
  obtain ⟨x, hx, rfl⟩ := List.mem_map.mp hr
  exact ⟨(hw.name_ok x hx).1, (hw.name_ok x hx).2, hw.oid_len x hx, hw.peel_len x hx⟩

/-- C20: the file that `packed_write` produces for a cache sorted by name is recognised as sorted, and looking a name up in it
returns exactly what the cache holds for that name. -/
theorem C20_write_lookup {size : Nat} (hs : 0 < size) (refs : List PackRef) (hw : Writable size refs) (name : Bytes) (w : Bool) :
    ∃ b, packedContent size refs = .ok b ∧
      (∀ oid peel, lookup size b name w = .ok (oid, peel) ↔ ⟨name, oid, peel⟩ ∈ refs) ∧
      (lookup size b name w = .err ENOTFOUND ↔ ∀ r ∈ refs, r.name ≠ name) := by
  refine ⟨_, packedContent_ok refs hw, ?_⟩
  have hmode : ∀ rs, ∃ k, setPeelingMode (file [packedHeader.drop 1] rs) w = .ok (true, k) := by
    intro rs
    have hf : file [packedHeader.drop 1] rs = traitsHeader ++ ((b!" peeled fully-peeled sorted ") ++ c!"\n" :: flat rs) := by
      simp [file, header, flat, packedHeader, traitsHeader]
    unfold setPeelingMode
    rw [if_pos ((isPrefixOf_iff _ _).mpr ⟨_, hf⟩), hf, List.drop_left]
    simp only
    rw [if_pos (by simp)]
    have : (((b!" peeled fully-peeled sorted ") ++ c!"\n" :: flat rs).takeWhile (· != c!"\n")) = b!" peeled fully-peeled sorted " :=
      takeWhile_append_stop _ _ _ (by decide +kernel) (by simp)
    rw [this]
    exact ⟨_, by rw [show hasInfix (b!" sorted ") (b!" peeled fully-peeled sorted ") = true by decide +kernel]⟩
  obtain ⟨k, hk⟩ := hmode (refs.map (fun r => ⟨r.name, r.oid, r.peel⟩))
  unfold lookup
  rw [hk]
  have := C20_lookup hs [packedHeader.drop 1] (by intro l hl; simp at hl; subst hl; decide) _ (writable_valid hw)
    (by rw [List.pairwise_map]; exact hw.sorted) name
  refine ⟨fun oid peel => ?_, ?_⟩
  · rw [this.1]
    simp only [List.mem_map]
    constructor
    · rintro ⟨x, hx, e⟩
      cases x; simp at e; obtain ⟨rfl, rfl, rfl⟩ := e; exact hx
    · intro h; exact ⟨_, h, rfl⟩
  · rw [this.2]
    simp

/-- C20: with distinct names and no order at all, loading the file gives back every record, peeled ids included. -/
theorem C20_unsorted_exact {size : Nat} (hs : 0 < size) (lines : List Bytes) (hl : ∀ l ∈ lines, (10 : UInt8) ∉ l ∧ (0 : UInt8) ∉ l)
    (recs : List Rec) (hv : ∀ r ∈ recs, r.Valid size) (ht : ∀ r ∈ recs, (0 : UInt8) ∉ r.name ∧ r.name.getLast? ≠ some 13)
    (hd : recs.Pairwise (fun a b => a.name ≠ b.name)) (name : Bytes) (oid : Bytes) (peel : Option Bytes) :
    unsortedLookup size (file lines recs) name = .ok (oid, peel) ↔ ⟨name, oid, peel⟩ ∈ recs := by
  unfold unsortedLookup
  rw [packedReload_ok hs lines hl recs hv ht]
  simp only [Res.bind_ok]
  rw [foldl_find_distinct recs name [] hd (by simp)]
  simp only [List.find?_nil, Option.or_none]
  have huniq : ∀ r ∈ recs, ∀ r' ∈ recs, r.name = r'.name → r = r' := by
    intro r hr r' hr' e
    obtain ⟨i, hi, hi'⟩ := List.mem_iff_getElem.mp hr
    obtain ⟨j, hj, hj'⟩ := List.mem_iff_getElem.mp hr'
    rcases Nat.lt_trichotomy i j with h | h | h
    · exact absurd (by rw [hi', hj']; exact e) (List.pairwise_iff_getElem.mp hd i j hi hj h)
    · subst h; rw [← hi', ← hj']
    · exact absurd (by rw [hi', hj']; exact e.symm) (List.pairwise_iff_getElem.mp hd j i hj hi h)
  cases hf : recs.find? (fun r => decide (r.name = name)) with
  | none =>
    have hn : ∀ r ∈ recs, r.name ≠ name := by simpa [List.find?_eq_none] using hf
    simp
    intro h; exact hn _ h rfl
  | some r =>
    have hmem := List.mem_of_find?_eq_some hf
    have hname : r.name = name := by simpa using List.find?_some hf
    simp
    constructor
    · rintro ⟨h1, h2⟩
      have : r = ⟨name, oid, peel⟩ := by cases r; simp_all
      rw [← this]; exact hmem
    · intro h
      have := huniq _ hmem _ h hname
      subst this; simp

/-! ## Concrete cases -/

def exRecs : List Rec := [⟨b!"refs/heads/a", [1, 2], none⟩, ⟨b!"refs/tags/v1", [3, 4], some [0xab, 0xcd]⟩, ⟨b!"refs/tags/v2", [5, 6], none⟩]

/-- the hypotheses of C20_lookup hold for a file with a peeled record in the middle -/
example : (∀ r ∈ exRecs, r.Valid 2) ∧ exRecs.Pairwise (fun a b => a.name < b.name) := by
  refine ⟨?_, by decide +kernel⟩
  intro r hr
  simp [exRecs] at hr
  rcases hr with rfl | rfl | rfl <;> constructor <;> decide

example : packedLookup 2 (file [b!" pack-refs with: sorted "] exRecs) (b!"refs/tags/v1") = .ok ([3, 4], some [0xab, 0xcd]) := by decide +kernel
example : packedLookup 2 (file [b!" pack-refs with: sorted "] exRecs) (b!"refs/tags/v2") = .ok ([5, 6], none) := by decide +kernel
example : packedLookup 2 (file [] exRecs) (b!"refs/tags/v") = .err ENOTFOUND := by decide +kernel
example : unsortedLookup 2 (file [b!" x"] exRecs.reverse) (b!"refs/tags/v1") = .ok ([3, 4], some [0xab, 0xcd]) := by decide +kernel
example : ∃ b, packedContent 2 [⟨b!"refs/heads/a", [1, 2], none⟩, ⟨b!"refs/tags/v1", [3, 4], some [7, 8]⟩] = .ok b ∧
    lookup 2 b (b!"refs/tags/v1") false = .ok ([3, 4], some [7, 8]) := ⟨_, rfl, by decide +kernel⟩

end Verif.RefPacked
