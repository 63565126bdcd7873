import Verif.Indexer.Model
import Verif.Pack.Lemmas
import Verif.Pack.Lemmas2
/-! # The trailer and the entries -/
namespace Verif.Indexer
open Spec Verif.Pack Verif.Pack.Spec

/-! ## the hash of everything but the trailer -/

/-- what was given to the hash and what is kept back are the file, and as much as possible is kept back -/
def Kept (s : St) : Prop := s.hashed ++ s.inbuf = s.file ∧ s.inbuf.length = min 20 s.file.length

theorem hashPartially_kept {s : St} (h : Kept s) (data : Bytes) :
    Kept { hashPartially s data with file := s.file ++ data } ∧
    hashPartially s data = { s with hashed := (hashPartially s data).hashed, inbuf := (hashPartially s data).inbuf } := by
  obtain ⟨h1, h2⟩ := h
  have hl := congrArg List.length h1
  rw [List.length_append] at hl
  unfold hashPartially
  by_cases a : data.length = 0
  · rw [if_pos a]
    have : data = [] := List.length_eq_zero_iff.mp a
    subst this
    exact ⟨⟨by simpa using h1, by simpa using h2⟩, rfl⟩
  · rw [if_neg a]
    by_cases b : data.length ≥ 20
    · rw [if_pos b]
      refine ⟨⟨?_, ?_⟩, rfl⟩
      · show s.hashed ++ s.inbuf ++ data.take (data.length - 20) ++ data.drop (data.length - 20) = s.file ++ data
        rw [h1, List.append_assoc, List.take_append_drop]
      · show (data.drop (data.length - 20)).length = min 20 (s.file ++ data).length
        rw [List.length_drop, List.length_append]; omega
    · rw [if_neg b]
      by_cases c : s.inbuf.length + data.length ≤ 20
      · rw [if_pos c]
        refine ⟨⟨?_, ?_⟩, rfl⟩
        · show s.hashed ++ (s.inbuf ++ data) = s.file ++ data
          rw [← List.append_assoc, h1]
        · show (s.inbuf ++ data).length = min 20 (s.file ++ data).length
          rw [List.length_append, List.length_append]; omega
      · rw [if_neg c]
        dsimp only
        have hk : (s.inbuf.drop (s.inbuf.length - (20 - data.length))).take (20 - data.length) = s.inbuf.drop (s.inbuf.length - (20 - data.length)) :=
          List.take_of_length_le (by rw [List.length_drop]; omega)
        rw [hk]
        refine ⟨⟨?_, ?_⟩, rfl⟩
        · show s.hashed ++ s.inbuf.take (s.inbuf.length - (20 - data.length)) ++ (s.inbuf.drop (s.inbuf.length - (20 - data.length)) ++ data) = s.file ++ data
          rw [List.append_assoc, ← List.append_assoc (s.inbuf.take _), List.take_append_drop, ← List.append_assoc, h1]
        · show (s.inbuf.drop (s.inbuf.length - (20 - data.length)) ++ data).length = min 20 (s.file ++ data).length
          rw [List.length_append, List.length_append, List.length_drop]; omega

theorem kept_hashed {s : St} (h : Kept s) : s.hashed = s.file.take (s.file.length - 20) := by
  obtain ⟨h1, h2⟩ := h
  have hl := congrArg List.length h1
  rw [List.length_append] at hl
  have : s.file.length - 20 = s.hashed.length := by omega
  rw [this, ← h1, List.take_left]

theorem kept_unique {s s' : St} (h : Kept s) (h' : Kept s') (e : s.file = s'.file) : s.hashed = s'.hashed ∧ s.inbuf = s'.inbuf := by
  have h1 : s.hashed = s'.hashed := by rw [kept_hashed h, kept_hashed h', e]
  refine ⟨h1, ?_⟩
  have := h.1.trans (e.trans h'.1.symm)
  rw [h1] at this
  exact List.append_cancel_left this

/-! ## the head of an entry -/

/-- the head of the entry at `off`: type, size, start of the stream -/
def openEnt (f : Bytes) (off : Nat) : Res (Nat × Nat × Nat) :=
  unpackHeader1 (f.drop off) >>= fun r =>
  if r.1 = 7 then .ok (7, r.2.1, off + r.2.2 + 20)
  else if r.1 = 6 then ofsBase (f.drop (off + r.2.2)) off >>= fun b => .ok (6, r.2.1, off + r.2.2 + b.2)
  else .ok (r.1, r.2.1, off + r.2.2)

theorem openEnt_head {f : Bytes} {off t sz st : Nat} (ho : off < 2 ^ 64) : openEnt f off = .ok (t, sz, st) ↔ Head f off t sz st := by
  unfold openEnt
  constructor
  · intro h
    cases hu : unpackHeader1 (f.drop off) with
    | err e => rw [hu] at h; cases h
    | ub => rw [hu] at h; cases h
    | ok r =>
      obtain ⟨t', s', u⟩ := r
      rw [hu, Res.bind_ok] at h
      obtain ⟨hb, rest, n, e1, e2, e3, e4, e5⟩ := (unpackHeader1_ok _ _ _ _).mp hu
      subst e4 e5
      dsimp only at h
      by_cases h7 : t' = 7
      · subst h7
        rw [if_pos rfl] at h
        cases h
        exact .ref e1 e2 e3
      · rw [if_neg h7] at h
        by_cases h6 : t' = 6
        · subst h6
          rw [if_pos rfl] at h
          cases hb' : ofsBase (f.drop (off + hb.length)) off with
          | err e => rw [hb'] at h; cases h
          | ub => rw [hb'] at h; cases h
          | ok r =>
            obtain ⟨base, u⟩ := r
            rw [hb', Res.bind_ok] at h
            obtain ⟨bs, rest', g1, g2, g3, g4, g5, g6⟩ := (ofsBase_ok _ _ _ _ ho).mp hb'
            subst g6
            cases h
            refine .ofs (rest := rest') ?_ e2 e3 g2 g3 g4
            rw [← List.drop_drop, e1, List.drop_left] at g1
            rw [e1, g1]
        · rw [if_neg h6] at h
          cases h
          exact .whole h6 h7 e1 e2 e3
  · intro h
    cases h with
    | @ref hb rest n e1 e2 e3 =>
      rw [(unpackHeader1_ok _ 7 (n % 2 ^ 64) hb.length).mpr ⟨hb, rest, n, e1, e2, e3, rfl, rfl⟩, Res.bind_ok, if_pos rfl]
    | @ofs hb bs rest n e1 e2 e3 g2 g3 g4 =>
      rw [(unpackHeader1_ok _ 6 (n % 2 ^ 64) hb.length).mpr ⟨hb, bs ++ rest, n, e1, e2, e3, rfl, rfl⟩, Res.bind_ok, if_neg (show ¬ (6 : Nat) = 7 by decide), if_pos rfl]
      dsimp only
      rw [(ofsBase_ok (f.drop (off + hb.length)) off _ bs.length ho).mpr ⟨bs, rest, ?_, g2, g3, g4, rfl, rfl⟩, Res.bind_ok]
      rw [← List.drop_drop, e1, List.drop_left]
    | @whole hb rest n t' h6 h7 e1 e2 e3 =>
      rw [(unpackHeader1_ok _ t (n % 2 ^ 64) hb.length).mpr ⟨hb, rest, n, e1, e2, e3, rfl, rfl⟩, Res.bind_ok]
      dsimp only
      rw [if_neg h7, if_neg h6]

/-- the start of the stream is after the start of the entry, and before the base is read at most ten bytes -/
theorem openEnt_lt {f : Bytes} {off t sz st : Nat} (h : openEnt f off = .ok (t, sz, st)) : off < st := by
  unfold openEnt at h
  cases hu : unpackHeader1 (f.drop off) with
  | err e => rw [hu] at h; cases h
  | ub => rw [hu] at h; cases h
  | ok r =>
    obtain ⟨t', s', u⟩ := r
    rw [hu, Res.bind_ok] at h
    obtain ⟨hb, rest, n, e1, e2, e3, e4, e5⟩ := (unpackHeader1_ok _ _ _ _).mp hu
    have : 0 < hb.length := by cases e2 <;> simp
    subst e5
    dsimp only at h
    split at h
    · cases h; omega
    · split at h
      · cases hb' : ofsBase (f.drop (off + hb.length)) off with
        | err e => rw [hb'] at h; cases h
        | ub => rw [hb'] at h; cases h
        | ok r => rw [hb'] at h; cases h; omega
      · cases h; omega

theorem drop_append_take (f x : Bytes) (off m : Nat) (h : off + m ≤ f.length) : ((f ++ x).drop off).take m = (f.drop off).take m := by
  rw [List.drop_append_of_le_length (by omega), List.take_append_of_le_length (by rw [List.length_drop]; omega)]

/-- the header does not depend on what follows -/
theorem header_prefix (f x : Bytes) (off : Nat) (h : off + 20 ≤ f.length) : unpackHeader1 ((f ++ x).drop off) = unpackHeader1 (f.drop off) := by
  rw [← unpackHeader1_take _ 20 (Nat.le_refl _), drop_append_take _ _ _ _ h, unpackHeader1_take _ 20 (Nat.le_refl _)]

theorem ofs_prefix (f x : Bytes) (pos off : Nat) (h : pos + 20 ≤ f.length) : ofsBase ((f ++ x).drop pos) off = ofsBase (f.drop pos) off := by
  rw [← ofsBase_take _ _ 20 (Nat.le_refl _), drop_append_take _ _ _ _ h, ofsBase_take _ _ 20 (Nat.le_refl _)]

end Verif.Indexer
