import Verif.FetchHead.Lemmas
/-! # The whole file -/
namespace Verif.FetchHead
open Spec (Ref OneLine NameOk RefOk shown Before seen)

/-- the callback that accepts everything -/
def noStop : Ref → Int := fun _ => 0

theorem parse_total (size : Nat) (line : Bytes) (m : Bool) : (∃ r, parse size line m = .ok r) ∨ parse size line m = .err (-1) := by
  have hd : ∀ oid m desc, (∃ r, parseDesc oid m desc = .ok r) ∨ parseDesc oid m desc = .err (-1) := by
    intro oid m desc
    unfold parseDesc
    split
    · exact .inl ⟨_, rfl⟩
    · split
      · exact .inr rfl
      · split
        · exact .inl ⟨_, rfl⟩
        · exact .inr rfl
  unfold parse
  split
  · exact .inr rfl
  · split
    · rcases parseOid_total size line with ⟨id, h⟩ | h
      · rw [h]; exact .inl ⟨_, rfl⟩
      · rw [h]; exact .inr rfl
    · rename_i o rest _
      rcases parseOid_total size o with ⟨id, h⟩ | h
      · rw [h, Res.bind_ok]
        split
        · exact .inl ⟨_, rfl⟩
        · unfold parseRest
          split
          · exact .inr rfl
          · split
            · exact hd _ _ _
            · split
              · exact hd _ _ _
              · exact .inr rfl
      · rw [h]; exact .inr rfl

theorem loop_total (size : Nat) (cb : Ref → Int) : ∀ (f : Nat) (buf : Bytes) (m : Bool), buf.length < f →
    ∃ rs c, foreachLoop size cb f buf m = .ok (rs, c)
  | 0, _, _, h => absurd h (by omega)
  | f + 1, buf, m, h => by
    unfold foreachLoop
    split
    · split <;> exact ⟨_, _, rfl⟩
    · rename_i line buf' hs
      obtain ⟨he, _⟩ := strsep_some hs
      have hl : buf'.length < f := by rw [he] at h; simp at h; omega
      rcases parse_total size line m with ⟨r, hr⟩ | hr
      · rw [hr]
        dsimp only
        split
        · exact ⟨_, _, rfl⟩
        · obtain ⟨rs, c, h1⟩ := loop_total size cb f buf' r.isMerge hl
          rw [h1]; exact ⟨_, _, rfl⟩
      · rw [hr]; exact ⟨_, _, rfl⟩

theorem loop_mono (size : Nat) (cb : Ref → Int) : ∀ (f F : Nat) (buf : Bytes) (m : Bool) (r : List Ref × Int), f ≤ F →
    foreachLoop size cb f buf m = .ok r → foreachLoop size cb F buf m = .ok r
  | 0, _, _, _, _, _, h => by unfold foreachLoop at h; cases h
  | f + 1, F, buf, m, r, hF, h => by
    cases F with
    | zero => omega
    | succ F =>
      unfold foreachLoop at h ⊢
      cases hs : strsep buf c!"\n" with
      | none => rw [hs] at h; exact h
      | some p =>
        rw [hs] at h
        obtain ⟨line, buf'⟩ := p
        dsimp only at h ⊢
        cases hp : parse size line m with
        | ub => rw [hp] at h; cases h
        | err e => rw [hp] at h; exact h
        | ok x =>
          rw [hp] at h
          dsimp only at h ⊢
          by_cases hc : cb x ≠ 0
          · rw [if_pos hc] at h ⊢; exact h
          · rw [if_neg hc] at h ⊢
            cases hl : foreachLoop size cb f buf' x.isMerge with
            | ok q => rw [hl] at h; rw [loop_mono size cb f F buf' x.isMerge q (by omega) hl]; exact h
            | err e => rw [hl] at h; cases h
            | ub => rw [hl] at h; cases h

/-- reading goes on where it has stopped -/
theorem loop_append (size : Nat) : ∀ (f : Nat) (old : Bytes) (m : Bool) (es : List Ref), foreachLoop size noStop f old m = .ok (es, 0) →
    ∃ m', ∀ g t rs c, foreachLoop size noStop g t m' = .ok (rs, c) → foreachLoop size noStop (f + g) (old ++ t) m = .ok (es ++ rs, c)
  | 0, _, _, _, h => by unfold foreachLoop at h; cases h
  | f + 1, old, m, es, h => by
    unfold foreachLoop at h
    cases hs : strsep old c!"\n" with
    | none =>
      rw [hs] at h
      dsimp only at h
      by_cases h0 : old = []
      · rw [if_pos h0] at h
        cases h
        subst h0
        refine ⟨m, ?_⟩
        intro g t rs c hg
        exact loop_mono size noStop g _ t m _ (by omega) hg
      · rw [if_neg h0] at h
        have := congrArg (fun r => match r with | Res.ok p => p.2 | _ => (0 : Int)) h
        simp at this
    | some p =>
      obtain ⟨line, buf'⟩ := p
      obtain ⟨he, hnl⟩ := strsep_some hs
      rw [hs] at h
      dsimp only at h
      rcases parse_total size line m with ⟨r, hr⟩ | hr
      · rw [hr] at h
        dsimp only at h
        rw [if_neg (by simp [noStop])] at h
        cases hl : foreachLoop size noStop f buf' r.isMerge with
        | ok q =>
          obtain ⟨rs', c'⟩ := q
          rw [hl] at h
          dsimp only at h
          cases h
          obtain ⟨m', ih⟩ := loop_append size f buf' r.isMerge rs' hl
          refine ⟨m', ?_⟩
          intro g t rs c hg
          have := ih g t rs c hg
          have e : f + 1 + g = (f + g) + 1 := by omega
          rw [e]
          unfold foreachLoop
          rw [he, List.append_assoc, List.cons_append, strsep_found hnl]
          dsimp only
          rw [hr]
          dsimp only
          rw [if_neg (by simp [noStop]), this]
          rfl
        | err e => rw [hl] at h; cases h
        | ub => rw [hl] at h; cases h
      · rw [hr] at h
        dsimp only at h
        have := congrArg (fun r => match r with | Res.ok p => p.2 | _ => (0 : Int)) h
        simp at this

theorem loop_seen (size : Nat) (cb : Ref → Int) : ∀ (f : Nat) (buf : Bytes) (m : Bool) (es : List Ref) (c : Int),
    foreachLoop size noStop f buf m = .ok (es, c) → foreachLoop size cb f buf m = .ok (seen cb es c)
  | 0, _, _, _, _, h => by unfold foreachLoop at h; cases h
  | f + 1, buf, m, es, c, h => by
    unfold foreachLoop at h ⊢
    cases hs : strsep buf c!"\n" with
    | none =>
      rw [hs] at h
      dsimp only at h ⊢
      split at h <;> rename_i h0
      · cases h; rw [if_pos h0]; rfl
      · cases h; rw [if_neg h0]; rfl
    | some p =>
      obtain ⟨line, buf'⟩ := p
      rw [hs] at h
      dsimp only at h ⊢
      rcases parse_total size line m with ⟨r, hr⟩ | hr
      · rw [hr] at h ⊢
        dsimp only at h ⊢
        rw [if_neg (by simp [noStop])] at h
        cases hl : foreachLoop size noStop f buf' r.isMerge with
        | ok q =>
          obtain ⟨rs', c'⟩ := q
          rw [hl] at h
          dsimp only at h
          cases h
          unfold seen
          by_cases hc : cb r ≠ 0
          · rw [if_pos hc, if_pos hc]
          · rw [if_neg hc, if_neg hc, loop_seen size cb f buf' r.isMerge rs' c hl]
        | err e => rw [hl] at h; cases h
        | ub => rw [hl] at h; cases h
      · rw [hr] at h ⊢
        dsimp only at h ⊢
        cases h; rfl

/-- what is written for references is read back -/
theorem writeRefs_read (size : Nat) (h0 : 0 < size) (h32 : size ≤ 32) : ∀ (rs : List Ref), (∀ r ∈ rs, RefOk size r) →
    ∃ text, writeRefs size rs = .ok text ∧ (0 : UInt8) ∉ text ∧
      ∀ m, foreachLoop size noStop (rs.length + 1) text m = .ok (rs.map shown, 0)
  | [], _ => ⟨[], rfl, by simp, fun _ => rfl⟩
  | r :: rs, hr => by
    obtain ⟨line, w1, w2, w3⟩ := write_read size h0 h32 r (hr r (by simp))
    obtain ⟨text, i1, i2, i3⟩ := writeRefs_read size h0 h32 rs (fun x hx => hr x (by simp [hx]))
    refine ⟨line ++ b!"\n" ++ text, ?_, ?_, ?_⟩
    · unfold writeRefs; rw [w1, Res.bind_ok, i1, Res.bind_ok]
    · intro h
      rcases List.mem_append.mp h with h | h
      · rcases List.mem_append.mp h with h | h
        · exact w2.1 h
        · revert h; decide
      · exact i2 h
    · intro m
      have e : line ++ b!"\n" ++ text = line ++ c!"\n" :: text := by simp
      rw [e, List.length_cons]
      unfold foreachLoop
      rw [strsep_found w2.2]
      dsimp only
      rw [w3 m]
      dsimp only
      rw [if_neg (by simp [noStop]), i3]
      rfl

end Verif.FetchHead
