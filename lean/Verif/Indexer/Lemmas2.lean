import Verif.Indexer.Lemmas
/-! # Reading one entry -/
namespace Verif.Indexer
open Spec Verif.Pack Verif.Pack.Spec

theorem view_window (E : Env) (s : St) (off : Nat) : (view E s).window off = s.file.drop off := by
  show (s.file.drop off).take s.file.length = s.file.drop off
  exact List.take_of_length_le (by rw [List.length_drop]; omega)

theorem view_header (E : Env) (s : St) (off : Nat) : unpackHeader (view E s) off =
    match unpackHeader1 (s.file.drop off) with
    | .ok (t, z, used) => .ok (t, z, off + used)
    | .err e => if e = EBUFS then .err e else .err (-1)
    | .ub => .ub := by
  unfold unpackHeader
  rw [view_window]
  rfl

theorem view_ofs (E : Env) (s : St) (pos off : Nat) : getDeltaBase (view E s) pos 6 off =
    if s.file.length < pos + 20 then .err EBUFS
    else ofsBase (s.file.drop pos) off >>= fun b => if b.1 = 0 then .err (-1) else .ok (b.1, pos + b.2) := by
  unfold getDeltaBase
  unfold Pack.Pack.windowOpen
  rw [view_window]
  by_cases h : s.file.length < pos + 20
  · rw [if_pos (by show (pos : Int) > (s.file.length : Int) - (20 : Nat); omega), if_pos h]
  · rw [if_neg (by show ¬ (pos : Int) > (s.file.length : Int) - (20 : Nat); omega), if_neg h]
    rfl

theorem ofsBase_pos {buf : Bytes} {off base u : Nat} (h : ofsBase buf off = .ok (base, u)) : base ≠ 0 := by
  unfold ofsBase at h
  cases buf with
  | nil => cases h
  | cons c buf =>
    dsimp only at h
    cases hl : ofsLoop (c &&& 127).toUInt64 c 1 buf with
    | err e => rw [hl] at h; cases h
    | ub => rw [hl] at h; cases h
    | ok r =>
      obtain ⟨x, used⟩ := r
      rw [hl, Res.bind_ok] at h
      dsimp only at h
      split at h
      · cases h
      · cases h; omega

/-- opening an entry: it waits, or fails, or the head is the one of the whole data and its stream is read -/
theorem open_cases (E : Env) (s : St) (X : Bytes) (hn : s.stream = none) (hl : s.off + 20 < s.file.length) :
    (readObject E s = .wait s ∧ ∀ t sz st, openEnt (s.file ++ X) s.off = .ok (t, sz, st) → s.file.length < st + 20) ∨
    ((∀ s', readObject E s ≠ .ready s') ∧ (∀ s', readObject E s ≠ .wait s') ∧ ∀ r, openEnt (s.file ++ X) s.off ≠ .ok r) ∨
    ∃ t sz st, openEnt (s.file ++ X) s.off = .ok (t, sz, st) ∧ readObject E s = readBody E { s with off := st } ⟨s.off, st, sz, t⟩ := by
  have hR : readObject E s = match Pack.unpackHeader (view E s) s.off with
      | .err e => if e = EBUFS then .wait s else .fail e
      | .ub => .ub
      | .ok (type, size, pos) =>
        if type = REF_DELTA then readBody E { s with off := pos + 20 } ⟨s.off, pos + 20, size, type⟩
        else if type = OFS_DELTA then match Pack.getDeltaBase (view E s) pos type s.off with
          | .err e => if e = EBUFS then .wait s else .fail e
          | .ub => .ub
          | .ok (_, pos') => readBody E { s with off := pos' } ⟨s.off, pos', size, type⟩
        else readBody E { s with off := pos } ⟨s.off, pos, size, type⟩ := by
    unfold readObject
    rw [if_neg (by omega), hn]
    rfl
  rw [hR, view_header]
  have hO : ∀ r, unpackHeader1 (s.file.drop s.off) = r → unpackHeader1 ((s.file ++ X).drop s.off) = r := fun r h => by
    rw [header_prefix _ _ _ (by omega)]; exact h
  cases hu : unpackHeader1 (s.file.drop s.off) with
  | ub =>
    right; left
    refine ⟨(fun _ h => nomatch h), (fun _ h => nomatch h), fun r h => ?_⟩
    unfold openEnt at h
    rw [hO _ hu] at h; cases h
  | err e =>
    have ho : ∀ r, openEnt (s.file ++ X) s.off ≠ .ok r := fun r h => by
      unfold openEnt at h
      rw [hO _ hu] at h; cases h
    dsimp only
    by_cases he : e = EBUFS
    · left
      rw [if_pos he]
      dsimp only
      rw [if_pos he]
      exact ⟨rfl, fun t sz st h => absurd h (ho _)⟩
    · right; left
      rw [if_neg he]
      dsimp only
      rw [if_neg (by decide)]
      exact ⟨(fun _ h => nomatch h), (fun _ h => nomatch h), ho⟩
  | ok r =>
    obtain ⟨t, z, used⟩ := r
    dsimp only
    have hE : openEnt (s.file ++ X) s.off = if t = 7 then .ok (7, z, s.off + used + 20)
        else if t = 6 then ofsBase ((s.file ++ X).drop (s.off + used)) s.off >>= fun b => .ok (6, z, s.off + used + b.2)
        else .ok (t, z, s.off + used) := by
      unfold openEnt
      rw [hO _ hu]
      rfl
    rw [hE]
    by_cases h7 : t = 7
    · subst h7
      right; right
      rw [if_pos rfl]
      refine ⟨7, z, s.off + used + 20, rfl, ?_⟩
      rw [if_pos (by rfl)]
    · rw [if_neg h7, if_neg (show ¬ t = REF_DELTA from h7)]
      by_cases h6 : t = 6
      · subst h6
        rw [if_pos rfl, if_pos (show 6 = OFS_DELTA from rfl), view_ofs]
        by_cases hp : s.file.length < s.off + used + 20
        · left
          rw [if_pos hp]
          refine ⟨rfl, fun t sz st h => ?_⟩
          cases hb : ofsBase ((s.file ++ X).drop (s.off + used)) s.off with
          | err e => rw [hb] at h; cases h
          | ub => rw [hb] at h; cases h
          | ok b => rw [hb] at h; cases h; omega
        · rw [if_neg hp, ofs_prefix _ _ _ _ (by omega)]
          cases hb : ofsBase (s.file.drop (s.off + used)) s.off with
          | ub =>
            right; left
            exact ⟨(fun _ h => nomatch h), (fun _ h => nomatch h), (fun _ h => nomatch h)⟩
          | err e =>
            by_cases he : e = EBUFS
            · left
              rw [Res.bind_err]
              dsimp only
              rw [if_pos he]
              exact ⟨rfl, fun _ _ _ h => nomatch h⟩
            · right; left
              rw [Res.bind_err]
              dsimp only
              rw [if_neg he]
              exact ⟨(fun _ h => nomatch h), (fun _ h => nomatch h), (fun _ h => nomatch h)⟩
          | ok b =>
            right; right
            obtain ⟨base, u⟩ := b
            refine ⟨6, z, s.off + used + u, rfl, ?_⟩
            rw [Res.bind_ok]
            dsimp only
            rw [if_neg (ofsBase_pos hb)]
      · rw [if_neg h6, if_neg (show ¬ t = OFS_DELTA from h6)]
        right; right
        exact ⟨t, z, s.off + used, rfl, rfl⟩

/-! ## the stream -/

theorem inflate_ext {inflate : Bytes → Infl} (hz : Zlib inflate) {b x : Bytes} {n : Nat} {d : Bytes} (h : inflate b = .done n d) : inflate (b ++ x) = .done n d := by
  have := hz.stream b n d (b.drop n ++ x) h
  rwa [← List.append_assoc, List.take_append_drop] at this

theorem inflate_prefix {inflate : Bytes → Infl} (hz : Zlib inflate) {b x : Bytes} {n : Nat} {d : Bytes} (h : inflate (b ++ x) = .done n d) :
    inflate b = if n ≤ b.length then .done n d else .more := by
  split
  · rename_i hn
    have := hz.stream _ _ _ (b.drop n) h
    rwa [List.take_append_of_le_length hn, List.take_append_drop] at this
  · rename_i hn
    cases hb : inflate b with
    | more => rfl
    | bad => rw [hz.bad _ x hb] at h; cases h
    | done m d' =>
      rw [inflate_ext hz hb] at h
      cases h
      exact absurd (hz.used _ _ _ hb).2 hn

/-- the stream at `start` of the whole data, seen from a file that is the front of it -/
theorem stream_prefix {inflate : Bytes → Infl} (hz : Zlib inflate) {f X : Bytes} {start n : Nat} {d : Bytes} (hs : start ≤ f.length)
    (h : inflate ((f ++ X).drop start) = .done n d) : inflate (f.drop start) = if start + n ≤ f.length then .done n d else .more := by
  rw [List.drop_append_of_le_length hs] at h
  rw [inflate_prefix hz h, List.length_drop]
  by_cases c : start + n ≤ f.length
  · rw [if_pos c, if_pos (by omega)]
  · rw [if_neg c, if_neg (by omega)]

theorem stallAt_some {E : Env} {s : St} {st : Stream} {limit c : Nat} (h : stallAt E s st limit = some c) : s.file.length < c + 20 ∧ s.off ≤ c ∧ c < limit := by
  unfold stallAt at h
  cases hs : E.stall s.file.length st.start with
  | none => rw [hs] at h; cases h
  | some c' =>
    rw [hs] at h
    dsimp only at h
    split at h
    · cases h; assumption
    · cases h

/-- what a stream that is being read must be like -/
structure Reading (E : Env) (F : Bytes) (s : St) (st : Stream) : Prop where
  le : st.start ≤ s.off
  room : st.entry + 20 < F.length
  head : openEnt F st.entry = .ok (st.type, st.size, st.start)
  lt : ∀ n d, E.inflate (F.drop st.start) = .done n d → s.off < st.start + n

/-- reading the stream: it waits at a place that is not after the end of the stream; or it fails, and so it would with the whole data; or it comes to its end -/
theorem body_cases {E : Env} (hz : Zlib E.inflate) {s : St} {st : Stream} {X : Bytes} (hr : Reading E (s.file ++ X) s st) :
    (∃ c, readBody E s st = .wait { s with stream := some st, off := c } ∧ Reading E (s.file ++ X) { s with stream := some st, off := c } st ∧ s.file.length < c + 20) ∨
    (readBody E s st = .fail (-1) ∧ ∀ n d, E.inflate ((s.file ++ X).drop st.start) ≠ .done n d) ∨
    (∃ n d, E.inflate ((s.file ++ X).drop st.start) = .done n d ∧ st.start + n ≤ s.file.length ∧
      readBody E s st = finish E { s with stream := none, off := st.start + n } st d) := by
  unfold readBody
  dsimp only
  by_cases hw : s.file.length < s.off + 20
  · rw [if_pos hw]
    exact .inl ⟨s.off, rfl, ⟨hr.le, hr.room, hr.head, hr.lt⟩, hw⟩
  · rw [if_neg hw]
    have hs : st.start ≤ s.file.length := by have := hr.le; omega
    have keep : ∀ c, s.off ≤ c → (∀ n d, E.inflate ((s.file ++ X).drop st.start) = .done n d → c < st.start + n) →
        Reading E (s.file ++ X) { s with stream := some st, off := c } st := fun c h1 h2 => ⟨Nat.le_trans hr.le h1, hr.room, hr.head, h2⟩
    cases hi : E.inflate (s.file.drop st.start) with
    | more =>
      dsimp only
      left
      have hd : ∀ n d, E.inflate ((s.file ++ X).drop st.start) = .done n d → s.file.length < st.start + n := by
        intro n d h
        have := stream_prefix hz hs h
        rw [hi] at this
        by_cases c : st.start + n ≤ s.file.length
        · rw [if_pos c] at this; cases this
        · omega
      cases ha : stallAt E { s with stream := some st } st (s.file.length + 1) with
      | none => exact ⟨s.file.length, rfl, keep _ (by omega) hd, by omega⟩
      | some c =>
        obtain ⟨a1, a2, a3⟩ := stallAt_some ha
        dsimp only at a1 a2
        exact ⟨c, rfl, keep _ a2 fun n d h => by have := hd n d h; omega, a1⟩
    | bad =>
      dsimp only
      have hd : ∀ n d, E.inflate ((s.file ++ X).drop st.start) ≠ .done n d := by
        intro n d h
        have := stream_prefix hz hs h
        rw [hi] at this
        split at this <;> cases this
      cases ha : stallAt E { s with stream := some st } st (s.file.length + 1) with
      | none => exact .inr (.inl ⟨rfl, hd⟩)
      | some c =>
        obtain ⟨a1, a2, a3⟩ := stallAt_some ha
        exact .inl ⟨c, rfl, keep _ a2 fun n d h => absurd h (hd n d), a1⟩
    | done n d =>
      dsimp only
      have hd : E.inflate ((s.file ++ X).drop st.start) = .done n d := by
        rw [List.drop_append_of_le_length hs]
        exact inflate_ext hz hi
      cases ha : stallAt E { s with stream := some st } st (st.start + n) with
      | none =>
        have := (hz.used _ _ _ hi).2
        rw [List.length_drop] at this
        exact .inr (.inr ⟨n, d, hd, by omega, rfl⟩)
      | some c =>
        obtain ⟨a1, a2, a3⟩ := stallAt_some ha
        exact .inl ⟨c, rfl, keep _ a2 fun n' d' h => by rw [hd] at h; cases h; exact a3, a1⟩

end Verif.Indexer
