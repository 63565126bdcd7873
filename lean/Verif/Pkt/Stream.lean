import Verif.Pkt.Payload
/-! # Frames and the receive loop -/
namespace Verif.Pkt
open Verif.Pkt.Spec Verif.Oid.Spec

/-- a value, the error -1, or undefined -/
def Ub1 {α : Type} (r : Res α) : Prop := ∀ e, r = .err e → e = -1
theorem Ub1.ite {α : Type} {c : Prop} [Decidable c] {a b : Res α} (ha : Ub1 a) (hb : Ub1 b) : Ub1 (if c then a else b) := by
  split
  · exact ha
  · exact hb
theorem Ub1.ok {α : Type} (a : α) : Ub1 (.ok a) := by intro e h; cases h
theorem Ub1.ub {α : Type} : Ub1 (.ub : Res α) := by intro e h; cases h
theorem Ub1.err {α : Type} : Ub1 (.err (-1) : Res α) := by intro e h; cases h; rfl
theorem Ub1.keep {d : Data} {r : Res Pkt} (h : Ub1 r) : Ub1 (keep d r) := by
  unfold Pkt.keep
  split
  · exact .ub
  · rename_i e
    have := h e rfl
    subst this; exact .err
  · exact .ok _

theorem strncmpEq_noerr (m p : Bytes) (e : Int) : strncmpEq m p ≠ .err e := by
  induction p generalizing m with
  | nil => simp [strncmpEq]
  | cons q p ih =>
    cases m with
    | nil => simp [strncmpEq]
    | cons c m =>
      rw [strncmpEq]
      split
      · simp
      · exact ih m

theorem refBody_ub1 (l : Bytes) (d : Data) : Ub1 (refBody l d) := by
  unfold refBody
  refine .ite .err (.ite .err ?_)
  cases readOid l with
  | ub => exact .ub
  | err e => exact .err
  | ok id => exact .ite .err (.ite .err (.ite (.ite (.ok _) .err) (.ok _)))

theorem payload_ub1 (payload after : Bytes) (d : Data) : Ub1 (parsePayload payload after d) := by
  unfold parsePayload
  refine .ite (.ok _) <| .ite (.ok _) <| .ite (.ok _) <| .ite (.keep ?_) <| .ite (.ok _) <|
    .ite (.keep ?_) <| .ite (.ok _) <| .ite (.keep ?_) <| .ite (.keep ?_) <| .ite (.keep (.ok _)) ?_
  · unfold ackPkt
    refine .ite .err (.ite .err (.ite .err ?_))
    cases readOid (payload.drop 4) with
    | ub => exact .ub
    | err e => exact .err
    | ok id =>
      dsimp only
      split
      · exact .ok _
      · exact .err
  · exact .ite .err (.ok _)
  · exact .ite .err (.ok _)
  · exact .ite .err (.ite .err (.ite .err (.ite .err (.ok _))))
  · have hs : ∀ w mk, Ub1 (shallowPkt w mk payload d) := by
      intro w mk
      unfold shallowPkt
      exact .ite .err (.ite .err (.ite .err (.ok _)))
    unfold lastCases prefixcmp
    split
    · exact .ub
    · rename_i e he; exact absurd he (strncmpEq_noerr _ _ e)
    · exact .keep (hs _ _)
    · split
      · exact .ub
      · rename_i e he; exact absurd he (strncmpEq_noerr _ _ e)
      · exact .keep (hs _ _)
      · unfold refPkt
        refine .ite ?_ (refBody_ub1 _ _)
        split
        · exact .ub
        · exact .err
        · exact refBody_ub1 _ _

theorem len_nat_nonempty {buf : Bytes} {n : Nat} (h : Len (buf.take 4) n) : 4 ≤ buf.length := by
  have := len_length h
  simp at this; omega

/-- every outcome of the parser -/
theorem parseLine_cases (buf stale : Bytes) (d : Data) :
    (Incomplete buf ∧ parseLine buf stale d = .err EBUFS) ∨
    (¬ Incomplete buf ∧
      (((∀ n, ¬ Len (buf.take 4) n) ∨ (∃ n, Len (buf.take 4) n ∧ 0 < n ∧ n ≤ 4)) ∧ parseLine buf stale d = .err (-1) ∨
       (Len (buf.take 4) 0 ∧ parseLine buf stale d = .ok (.flush, 4, d)) ∨
       ∃ payload rest n, n = payload.length + 4 ∧ Len (buf.take 4) n ∧ payload ≠ [] ∧ buf = buf.take 4 ++ payload ++ rest ∧
          parseLine buf stale d = (match parsePayload payload (rest ++ stale) d with
            | .ub => .ub | .err e => .err e | .ok (p, d) => .ok (p, n, d)))) := by
  unfold parseLine
  rcases parseLen_cases buf with ⟨h, e⟩ | ⟨h4, n, hn, e⟩ | ⟨h4, hn, e⟩
  · left; rw [e]; exact ⟨.inl h, rfl⟩
  · rw [e]
    dsimp only
    by_cases hlt : buf.length < n
    · left; rw [if_pos hlt]; exact ⟨.inr ⟨n, hn, hlt⟩, rfl⟩
    · right
      rw [if_neg hlt]
      refine ⟨?_, ?_⟩
      · rintro (h | ⟨m, hm, hlt'⟩)
        · omega
        · have := len_inj hn hm; omega
      · by_cases h1 : n ≠ 0 ∧ n < 4
        · left; rw [if_pos h1]; exact ⟨.inr ⟨n, hn, by omega, by omega⟩, rfl⟩
        · rw [if_neg h1]
          by_cases h2 : n = 4
          · left; rw [if_pos h2]; exact ⟨.inr ⟨n, hn, by omega, by omega⟩, rfl⟩
          · rw [if_neg h2]
            by_cases h3 : n = 0
            · right; left; rw [if_pos h3]; subst h3; exact ⟨hn, rfl⟩
            · right; right
              rw [if_neg h3]
              refine ⟨(buf.drop 4).take (n - 4), buf.drop n, n, by simp; omega, hn, ?_, ?_, rfl⟩
              · intro h0
                have := congrArg List.length h0
                simp at this; omega
              · rw [List.append_assoc]
                have : buf.drop n = (buf.drop 4).drop (n - 4) := by rw [List.drop_drop]; congr 1; omega
                rw [this, List.take_append_drop, List.take_append_drop]
  · right
    rw [e]
    refine ⟨?_, .inl ⟨.inl hn, rfl⟩⟩
    rintro (h | ⟨m, hm, _⟩)
    · omega
    · exact hn m hm

theorem len_zero_iff (ds : Bytes) : Len ds 0 ↔ ds = b!"0000" := by
  constructor
  · rintro ⟨a, b, c, d, e, h⟩
    have ha : a = 0 := by apply UInt8.toNat_inj.mp; simp; omega
    have hb : b = 0 := by apply UInt8.toNat_inj.mp; simp; omega
    have hc : c = 0 := by apply UInt8.toNat_inj.mp; simp; omega
    have hd : d = 0 := by apply UInt8.toNat_inj.mp; simp; omega
    subst ha hb hc hd
    have z : ∀ c : UInt8, hexVal c = some 0 → c = c!"0" := by decide +kernel
    have hl := mapM_length e
    match ds, hl with
    | [c1, c2, c3, c4], _ =>
      obtain ⟨_, _, h1, e, q⟩ := mapM_some_cons e; cases q
      obtain ⟨_, _, h2, e, q⟩ := mapM_some_cons e; cases q
      obtain ⟨_, _, h3, e, q⟩ := mapM_some_cons e; cases q
      obtain ⟨_, _, h4, e, q⟩ := mapM_some_cons e; cases q
      rw [z _ h1, z _ h2, z _ h3, z _ h4]
  · rintro rfl
    exact ⟨0, 0, 0, 0, by decide +kernel, rfl⟩

/-- the line a complete buffer begins with is unique -/
theorem line_unique {line rest buf : Bytes} {p : Pkt} (h : Line line p) (e : buf = line ++ rest) :
    ¬ Incomplete buf ∧ ((Len (buf.take 4) 0 ∧ line.length = 4 ∧ p = .flush) ∨
      (∃ payload, Len (buf.take 4) (payload.length + 4) ∧ payload ≠ [] ∧ buf = buf.take 4 ++ payload ++ rest ∧
        line.length = payload.length + 4 ∧ (Means payload p ∨ Garbage payload p))) := by
  subst e
  rcases h with ⟨rfl, rfl⟩ | ⟨payload, ⟨ds, hl, rfl, hne⟩, hm⟩
  · have h0 : Len ((b!"0000" ++ rest).take 4) 0 := by rw [len_zero_iff]; rfl
    refine ⟨?_, .inl ⟨h0, rfl, rfl⟩⟩
    rintro (h | ⟨m, hm, hlt⟩)
    · simp at h; omega
    · have := len_inj h0 hm; omega
  · have h4 := len_length hl
    have ht : (ds ++ payload ++ rest).take 4 = ds := by
      rw [List.append_assoc, List.take_append_of_le_length (by omega), List.take_of_length_le (by omega)]
    refine ⟨?_, .inr ⟨payload, by rw [ht]; exact hl, hne, by rw [ht], by simp; omega, hm⟩⟩
    rintro (h | ⟨m, hm, hlt⟩)
    · simp at h; omega
    · rw [ht] at hm
      have := len_inj hl hm
      simp at hlt; omega

/-- what `recv_pkt` finds at the beginning of a buffer -/
theorem parseLine_recv (buf stale : Bytes) (hst : 9 ≤ stale.length) :
    (Incomplete buf ∧ parseLine buf stale recvData = .err EBUFS) ∨
    (¬ Incomplete buf ∧ parseLine buf stale recvData = .err (-1) ∧ ∀ line rest p, buf = line ++ rest → ¬ Line line p) ∨
    (¬ Incomplete buf ∧ ∃ line rest p, buf = line ++ rest ∧ Line line p ∧
      parseLine buf stale recvData = .ok (p, line.length, recvData)) := by
  rcases parseLine_cases buf stale recvData with h | ⟨hi, ⟨hbad, e⟩ | ⟨h0, e⟩ | ⟨payload, rest, n, hn, hl, hne, hb, e⟩⟩
  · exact .inl h
  · refine .inr (.inl ⟨hi, e, ?_⟩)
    intro line rest p hb hL
    rcases (line_unique hL hb).2 with ⟨hz, _, _⟩ | ⟨payload, hl, hne, _⟩
    · rcases hbad with h | ⟨n, hn, h1, h2⟩
      · exact h _ hz
      · have := len_inj hz hn; omega
    · rcases hbad with h | ⟨n, hn, h1, h2⟩
      · exact h _ hl
      · have := len_inj hl hn
        have := List.length_pos_iff.mpr hne
        omega
  · refine .inr (.inr ⟨hi, b!"0000", buf.drop 4, .flush, ?_, .inl ⟨rfl, rfl⟩, e⟩)
    rw [← (len_zero_iff _).mp h0, List.take_append_drop]
  · have h9 : 9 ≤ (payload ++ (rest ++ stale)).length := by simp; omega
    rcases payload_cases payload (rest ++ stale) h9 with h | ⟨p, h⟩
    · rw [h] at e
      refine .inr (.inl ⟨hi, e, ?_⟩)
      intro line rest' p hb' hL
      rcases (line_unique hL hb').2 with ⟨hz, _, _⟩ | ⟨payload', hl', hne', hb'', hlen, hm⟩
      · have := len_inj hz hl; omega
      · have hpl : payload' = payload := by
          have h1 := len_inj hl hl'
          have h2 : buf.take 4 ++ payload ++ rest = buf.take 4 ++ payload' ++ rest' := by rw [← hb, ← hb'']
          rw [List.append_assoc, List.append_assoc, List.append_cancel_left_eq] at h2
          exact (List.append_inj h2 (by omega)).1.symm
        subst hpl
        rcases hm with hm | ⟨t, id, ht, hnone, hg⟩
        · rw [payload_complete _ _ _ h9 hm] at h; cases h
        · rcases hg with ⟨rfl, rfl⟩ | ⟨rfl, rfl⟩ <;>
          · unfold parsePayload at h
            rw [lastCases_independent _ _ h9] at h
            simp [Loose.prefixEq, keep, shallowPkt, hexsize, recvData, ht] at h
    · rw [h] at e
      refine .inr (.inr ⟨hi, buf.take 4 ++ payload, rest, p, hb, .inr ⟨payload, ⟨_, by rw [← hn]; exact hl, rfl, hne⟩, ?_⟩, ?_⟩)
      · exact (payload_sound _ _ _ _ h9 h).1
      · rw [e]
        have h4 := len_length hl
        simp at h4
        simp [hn, h4]
        omega

/-- bytes that follow do not change the outcome of a complete line -/
theorem parseLine_more (buf more stale stale' : Bytes) (hs : 9 ≤ stale.length) (hs' : 9 ≤ stale'.length) (hi : ¬ Incomplete buf) :
    parseLine (buf ++ more) stale' recvData = parseLine buf stale recvData := by
  have h4 : ¬ buf.length < 4 := fun h => hi (.inl h)
  have ht : (buf ++ more).take 4 = buf.take 4 := List.take_append_of_le_length (by omega)
  have hl : parseLen (buf ++ more) = parseLen buf := by
    unfold parseLen
    rw [if_neg h4, if_neg (by simp; omega), ht]
  unfold parseLine
  rw [hl]
  cases e : parseLen buf with
  | ub => rfl
  | err e => rfl
  | ok n =>
    dsimp only
    have hn := (parseLen_iff buf n).mp e
    have hle : ¬ buf.length < n := fun h => hi (.inr ⟨n, hn, h⟩)
    rw [if_neg hle, if_neg (by simp; omega)]
    split
    · rfl
    split
    · rfl
    split
    · rfl
    · have hd : ((buf ++ more).drop 4).take (n - 4) = (buf.drop 4).take (n - 4) := by
        rw [List.drop_append_of_le_length (by omega), List.take_append_of_le_length (by simp; omega)]
      rw [hd, payload_independent _ ((buf ++ more).drop n ++ stale') (buf.drop n ++ stale) (by simp; omega) (by simp; omega)]

theorem incomplete_lt {buf : Bytes} (h : Incomplete buf) : buf.length < BUFSZ := by
  unfold BUFSZ
  rcases h with h | ⟨n, hn, h⟩
  · omega
  · have := len_lt hn; omega

/-- the parser is only called on a buffer that is not empty; an empty one would be incomplete anyway -/
theorem parse_nonempty (t : Conn) (stale : Bytes) (d : Data) :
    (if t.buf.length > 0 then parseLine t.buf stale d else .err EBUFS) = parseLine t.buf stale d := by
  split
  · rfl
  · rename_i h
    have : t.buf = [] := List.length_eq_zero_iff.mp (by omega)
    rw [this]; rfl

/-- what one call of `recv_pkt` returns, whatever sizes the network chooses -/
theorem recvPkt_spec (env : Env) (henv : ∀ i, 9 ≤ (env i).2.length) (fuel : Nat) (t : Conn) (hf : t.stream.length < fuel) :
    (Incomplete (t.buf ++ t.stream) ∧ recvPkt env fuel t recvData = .err EEOF) ∨
    (¬ Incomplete (t.buf ++ t.stream) ∧ (∀ line rest p, t.buf ++ t.stream = line ++ rest → ¬ Line line p) ∧
      recvPkt env fuel t recvData = .err (-1)) ∨
    (∃ line rest p t', t.buf ++ t.stream = line ++ rest ∧ Line line p ∧ t'.buf ++ t'.stream = rest ∧
      recvPkt env fuel t recvData = .ok (p, t')) := by
  induction fuel generalizing t with
  | zero => omega
  | succ fuel ih =>
    rw [recvPkt]
    rw [parse_nonempty]
    rcases parseLine_recv t.buf (env t.reads).2 (henv _) with ⟨hi, e⟩ | ⟨hi, e, hno⟩ | ⟨hi, line, rest, p, hb, hL, e⟩
    · rw [e]
      dsimp only
      rw [if_neg (by simp)]
      have hlt := incomplete_lt hi
      unfold recv
      rw [if_neg (by omega)]
      dsimp only
      by_cases hs : t.stream = []
      · left
        rw [hs]
        simp [hi]
      · have hpos := List.length_pos_iff.mpr hs
        rw [if_neg (by omega)]
        generalize hn : min (max 1 (env t.reads).1) (min (BUFSZ - t.buf.length) t.stream.length) = n
        have := ih ⟨t.buf ++ t.stream.take n, t.stream.drop n, t.reads + 1⟩ (by simp; omega)
        have ea : t.buf ++ t.stream.take n ++ t.stream.drop n = t.buf ++ t.stream := by
          rw [List.append_assoc, List.take_append_drop]
        dsimp only at this
        rw [ea] at this
        exact this
    · rw [e]
      dsimp only
      rw [if_pos (by decide)]
      have := parseLine_more t.buf t.stream _ _ (henv t.reads) (henv t.reads) hi
      rw [e] at this
      right; left
      rcases parseLine_recv (t.buf ++ t.stream) (env t.reads).2 (henv _) with ⟨_, e2⟩ | ⟨hi2, _, hno2⟩ | ⟨_, _, _, _, _, _, e2⟩
      · rw [e2] at this; cases this
      · exact ⟨hi2, hno2, rfl⟩
      · rw [e2] at this; cases this
    · rw [e]
      right; right
      refine ⟨line, rest ++ t.stream, p, _, by rw [hb, List.append_assoc], hL, ?_, rfl⟩
      dsimp only
      rw [hb, List.drop_left]

end Verif.Pkt
