import Verif.Pkt.Stream
/-! # C41: packet lines -/
namespace Verif.Pkt
open Verif.Pkt.Spec Verif.Oid.Spec

/-- the announced length: four hexadecimal digits, either case, nothing else -/
theorem C41_length (line : Bytes) (n : Nat) : parseLen line = .ok n ↔ Len (line.take 4) n := parseLen_iff line n

/-- `git_pkt_parse_line` asks for more bytes (EBUFS) exactly when the buffer does not hold a whole line; for every parse state and
whatever memory follows the buffer -/
theorem C41_incomplete (buf stale : Bytes) (d : Data) : parseLine buf stale d = .err EBUFS ↔ Incomplete buf := by
  rcases parseLine_cases buf stale d with ⟨hi, e⟩ | ⟨hi, ⟨_, e⟩ | ⟨_, e⟩ | ⟨payload, rest, n, _, _, _, _, e⟩⟩
  · exact ⟨fun _ => hi, fun _ => e⟩
  · refine ⟨fun h => ?_, fun h => absurd h hi⟩
    rw [e] at h; cases h
  · refine ⟨fun h => ?_, fun h => absurd h hi⟩
    rw [e] at h; cases h
  · refine ⟨fun h => ?_, fun h => absurd h hi⟩
    rw [e] at h
    cases hp : parsePayload payload (rest ++ stale) d with
    | ub => rw [hp] at h; cases h
    | ok a => rw [hp] at h; obtain ⟨p, d'⟩ := a; cases h
    | err x => rw [hp] at h; have := payload_ub1 _ _ _ x hp; subst this; cases h

/-- a packet that was parsed is a line of the format, and exactly that line is consumed; for every parse state -/
theorem C41_consumes (buf stale : Bytes) (d : Data) (p : Pkt) (n : Nat) (d' : Data) (h : parseLine buf stale d = .ok (p, n, d')) :
    ∃ line rest, buf = line ++ rest ∧ n = line.length ∧
      ((line = b!"0000" ∧ p = .flush) ∨ ∃ payload, DataLine line payload) := by
  rcases parseLine_cases buf stale d with ⟨hi, e⟩ | ⟨hi, ⟨_, e⟩ | ⟨h0, e⟩ | ⟨payload, rest, m, hm, hl, hne, hb, e⟩⟩
  · rw [e] at h; cases h
  · rw [e] at h; cases h
  · rw [e] at h; cases h
    exact ⟨b!"0000", buf.drop 4, by rw [← (len_zero_iff _).mp h0, List.take_append_drop], rfl, .inl ⟨rfl, rfl⟩⟩
  · rw [e] at h
    cases hp : parsePayload payload (rest ++ stale) d with
    | ub => rw [hp] at h; cases h
    | err x => rw [hp] at h; cases h
    | ok a =>
      rw [hp] at h; obtain ⟨p', d''⟩ := a; cases h
      have h4 := len_length hl
      refine ⟨_, rest, hb, ?_, .inr ⟨payload, _, by rw [← hm]; exact hl, rfl, hne⟩⟩
      rw [List.length_append, h4]; omega

/-- every proper prefix of a line that parses is reported as incomplete -/
theorem C41_prefix (buf stale stale' : Bytes) (d d' d'' : Data) (p : Pkt) (n : Nat) (h : parseLine buf stale d = .ok (p, n, d'))
    (k : Nat) (hk : k < n) : parseLine (buf.take k) stale' d'' = .err EBUFS := by
  rw [C41_incomplete]
  obtain ⟨line, rest, rfl, rfl, ⟨rfl, _⟩ | ⟨payload, ds, hl, rfl, _⟩⟩ := C41_consumes _ _ _ _ _ _ h
  · left; simp at hk; simp; omega
  · have h4 := len_length hl
    by_cases h : k < 4
    · left; simp; omega
    · right
      simp only [List.length_append] at hk
      refine ⟨payload.length + 4, ?_, ?_⟩
      · rw [List.take_take, Nat.min_eq_left (by omega), List.append_assoc, List.take_append_of_le_length (by omega),
          List.take_of_length_le (by omega)]
        exact hl
      · simp; omega

/-- after the advertisement, a buffer parses to a packet exactly when it begins with a line that means that packet
(when nine more bytes of memory can be read behind the buffer; see `C41_overread`), whatever these bytes are -/
theorem C41_packet (buf stale : Bytes) (hst : 9 ≤ stale.length) (line rest : Bytes) (payload : Bytes) (p : Pkt)
    (hb : buf = line ++ rest) (hl : DataLine line payload) :
    (Means payload p → parseLine buf stale recvData = .ok (p, line.length, recvData)) ∧
    (∀ n d, parseLine buf stale recvData = .ok (p, n, d) → (Means payload p ∨ Garbage payload p) ∧ n = line.length ∧ d = recvData) ∧
    parseLine buf stale recvData ≠ .ub := by
  obtain ⟨ds, hl, rfl, hne⟩ := hl
  have h4 := len_length hl
  have h9 : 9 ≤ (payload ++ (rest ++ stale)).length := by simp; omega
  have ht : buf.take 4 = ds := by
    rw [hb, List.append_assoc, List.take_append_of_le_length (by omega), List.take_of_length_le (by omega)]
  have e : parseLine buf stale recvData = (match parsePayload payload (rest ++ stale) recvData with
      | .ub => .ub | .err e => .err e | .ok (p, d) => .ok (p, payload.length + 4, d)) := by
    rcases parseLine_cases buf stale recvData with ⟨hi, e⟩ | ⟨hi, ⟨hbad, e⟩ | ⟨h0, e⟩ | ⟨payload', rest', m, hm, hl', hne', hb', e⟩⟩
    · exfalso
      rcases hi with h | ⟨m, hm, h⟩
      · rw [hb] at h; simp at h; omega
      · rw [ht] at hm
        have := len_inj hl hm
        rw [hb] at h; simp at h; omega
    · exfalso
      rw [ht] at hbad
      rcases hbad with h | ⟨m, hm, h1, h2⟩
      · exact h _ hl
      · have := len_inj hl hm
        have := List.length_pos_iff.mpr hne
        omega
    · exfalso
      rw [ht] at h0
      have := len_inj hl h0; omega
    · rw [ht] at hl'
      have hh := len_inj hl hl'
      rw [e]
      have : payload' = payload ∧ rest' = rest := by
        rw [ht] at hb'
        rw [hb, List.append_assoc, List.append_assoc, List.append_cancel_left_eq] at hb'
        have := List.append_inj hb' (by omega)
        exact ⟨this.1.symm, this.2.symm⟩
      rw [this.1, this.2, ← hh]
      rfl
  refine ⟨?_, ?_, ?_⟩
  · intro hm
    rw [e, payload_complete _ _ _ h9 hm]
    simp [h4]
    omega
  · intro n d h
    rw [e] at h
    cases hp : parsePayload payload (rest ++ stale) recvData with
    | ub => rw [hp] at h; cases h
    | err x => rw [hp] at h; cases h
    | ok a =>
      rw [hp] at h; obtain ⟨p', d''⟩ := a; cases h
      have := payload_sound _ _ _ _ h9 hp
      exact ⟨this.1, by rw [List.length_append, h4]; omega, this.2⟩
  · rw [e]
    rcases payload_cases payload (rest ++ stale) h9 with h | ⟨p, h⟩ <;> rw [h] <;> simp

/-- **C41.** Receiving packets until the connection fails gives the packets of the stream, in order, and then the end of the stream or
a protocol error, whatever the sizes of the reads; and the 64 KiB buffer never runs out of space. -/
theorem C41_stream (env : Env) (henv : ∀ i, 9 ≤ (env i).2.length) (t : Conn) (fuel : Nat)
    (hf : t.buf.length + t.stream.length < fuel) :
    Stream (t.buf ++ t.stream) (recvAll env fuel t).1 (recvAll env fuel t).2 := by
  induction fuel generalizing t with
  | zero => omega
  | succ fuel ih =>
    rw [recvAll]
    rcases recvPkt_spec env henv (t.stream.length + 1) t (by omega) with ⟨hi, e⟩ | ⟨hi, hno, e⟩ | ⟨line, rest, p, t', hb, hL, ht', e⟩
    · rw [e]; exact .eof hi
    · rw [e]; exact .bad hi hno
    · rw [e, hb]
      dsimp only
      refine .pkt hL ?_
      rw [← ht']
      refine ih t' ?_
      have h1 := congrArg List.length hb
      have h2 := congrArg List.length ht'
      have h3 : 4 ≤ line.length := by
        rcases hL with ⟨rfl, _⟩ | ⟨payload, ⟨ds, hl, rfl, _⟩, _⟩
        · decide
        · have := len_length hl; simp; omega
      simp at h1 h2
      omega

/-- parsing is a function of the frame: one step of receiving does not depend on how the bytes arrive -/
theorem recvPkt_det (env env' : Env) (henv : ∀ i, 9 ≤ (env i).2.length) (henv' : ∀ i, 9 ≤ (env' i).2.length) (f f' : Nat)
    (t t' : Conn) (hf : t.stream.length < f) (hf' : t'.stream.length < f') (h : t.buf ++ t.stream = t'.buf ++ t'.stream) :
    (∃ e, recvPkt env f t recvData = .err e ∧ recvPkt env' f' t' recvData = .err e) ∨
    (∃ p c c', recvPkt env f t recvData = .ok (p, c) ∧ recvPkt env' f' t' recvData = .ok (p, c') ∧
      c.buf ++ c.stream = c'.buf ++ c'.stream ∧ c.buf.length + c.stream.length < t.buf.length + t.stream.length) := by
  -- a run returns what parsing the whole remaining stream would return
  have key : ∀ (env : Env) (_ : ∀ i, 9 ≤ (env i).2.length) (f : Nat) (t : Conn) (_ : t.stream.length < f) (st : Bytes) (_ : 9 ≤ st.length),
      recvPkt env f t recvData = (match parseLine (t.buf ++ t.stream) st recvData with
        | .ub => .ub
        | .err e => .err (if e = EBUFS then EEOF else e)
        | .ok (p, _, _) => recvPkt env f t recvData) ∧
      ∀ p n d, parseLine (t.buf ++ t.stream) st recvData = .ok (p, n, d) →
        ∃ c, recvPkt env f t recvData = .ok (p, c) ∧ c.buf ++ c.stream = (t.buf ++ t.stream).drop n := by
    intro env henv f
    induction f with
    | zero => intro t hf; omega
    | succ f ih =>
      intro t hf st hst
      rw [recvPkt]
      rw [parse_nonempty]
      rcases parseLine_recv t.buf (env t.reads).2 (henv _) with ⟨hi, e⟩ | ⟨hi, e, hno⟩ | ⟨hi, line, rest, p, hb, hL, e⟩
      · rw [e]
        dsimp only
        rw [if_neg (by simp)]
        have hlt := incomplete_lt hi
        unfold recv
        rw [if_neg (by omega)]
        dsimp only
        by_cases hs : t.stream = []
        · rw [hs, List.append_nil]
          have := (C41_incomplete t.buf st recvData).mpr hi
          rw [this]
          refine ⟨by simp, by intro p n d h; cases h⟩
        · have hpos := List.length_pos_iff.mpr hs
          rw [if_neg (by omega)]
          generalize hn : min (max 1 (env t.reads).1) (min (BUFSZ - t.buf.length) t.stream.length) = n
          have := ih ⟨t.buf ++ t.stream.take n, t.stream.drop n, t.reads + 1⟩ (by simp; omega) st hst
          have ea : t.buf ++ t.stream.take n ++ t.stream.drop n = t.buf ++ t.stream := by
            rw [List.append_assoc, List.take_append_drop]
          dsimp only at this
          rw [ea] at this
          exact this
      · have := parseLine_more t.buf t.stream _ _ (henv t.reads) hst hi
        rw [this, e]
        refine ⟨by rfl, by intro p n d h; cases h⟩
      · have := parseLine_more t.buf t.stream _ _ (henv t.reads) hst hi
        rw [this, e]
        refine ⟨by rfl, ?_⟩
        intro p' n d h
        cases h
        refine ⟨_, rfl, ?_⟩
        dsimp only
        rw [hb, List.drop_left, List.append_assoc, List.drop_left]
  have st : Bytes := List.replicate 9 0
  have k1 := key env henv f t hf (List.replicate 9 0) (by simp)
  have k2 := key env' henv' f' t' hf' (List.replicate 9 0) (by simp)
  rw [← h] at k2
  cases e : parseLine (t.buf ++ t.stream) (List.replicate 9 0) recvData with
  | ub =>
    exfalso
    rcases parseLine_recv (t.buf ++ t.stream) (List.replicate 9 0) (by simp) with ⟨_, e2⟩ | ⟨_, e2, _⟩ | ⟨_, _, _, _, _, _, e2⟩ <;>
    · rw [e2] at e; cases e
  | err x =>
    rw [e] at k1 k2
    exact .inl ⟨_, k1.1, k2.1⟩
  | ok a =>
    obtain ⟨p, n, d⟩ := a
    obtain ⟨c, h1, h2⟩ := k1.2 p n d e
    obtain ⟨c', h3, h4⟩ := k2.2 p n d e
    refine .inr ⟨p, c, c', h1, h3, h2.trans h4.symm, ?_⟩
    have := congrArg List.length h2
    obtain ⟨line, rest, hb, hn, hl⟩ := C41_consumes _ _ _ _ _ _ e
    have h4' : 4 ≤ line.length := by
      rcases hl with ⟨rfl, _⟩ | ⟨payload, ds, hl, rfl, _⟩
      · decide
      · have := len_length hl; simp; omega
    have hb' := congrArg List.length hb
    simp at this hb'
    omega

/-- **C41.** The packets received and the way it ends are the same for every split of the same stream into reads (and for every
content of the memory behind the buffer). -/
theorem C41_chunking (env env' : Env) (henv : ∀ i, 9 ≤ (env i).2.length) (henv' : ∀ i, 9 ≤ (env' i).2.length) (t t' : Conn)
    (h : t.buf ++ t.stream = t'.buf ++ t'.stream) (f f' : Nat) (hf : t.buf.length + t.stream.length < f)
    (hf' : t'.buf.length + t'.stream.length < f') : recvAll env f t = recvAll env' f' t' := by
  induction f generalizing f' t t' with
  | zero => omega
  | succ f ih =>
    cases f' with
    | zero => omega
    | succ f' =>
      rw [recvAll, recvAll]
      rcases recvPkt_det env env' henv henv' _ _ t t' (Nat.lt_succ_self _) (Nat.lt_succ_self _) h with
        ⟨e, h1, h2⟩ | ⟨p, c, c', h1, h2, h3, h4⟩
      · rw [h1, h2]
      · rw [h1, h2]
        dsimp only
        have hl := congrArg List.length h
        have hl2 := congrArg List.length h3
        simp at hl hl2
        rw [ih c c' h3 f' (by omega) (by omega)]

/-! ## Deviations -/

/-- when the buffer ends inside the word `shallow` (or `unshallow`), the parser reads behind the buffer -/
theorem C41_overread : parseLine b!"0005s" [] recvData = .ub ∧ parseLine b!"000aunshal" [] recvData = .ub := by
  decide +kernel

/-- the first line of the advertisement: the search for `object-format=` in its capabilities runs on into whatever follows the line, so
the result depends on bytes that do not belong to the packet. Here the same complete first packet is accepted or refused according to
the bytes behind it; with no NUL behind it the search leaves the buffer. -/
theorem C41_caps_overread :
    let line := b!"003c" ++ List.replicate 40 c!"0" ++ b!" HEAD" ++ [0] ++ b!"ofs-delta\n"
    (∃ p, parseLine (line ++ b!"0000") [0] ⟨0, false⟩ = .ok (p, 60, ⟨1, true⟩)) ∧
    parseLine (line ++ b!"0017 object-format=zzz ") [0] ⟨0, false⟩ = .err (-1) ∧
    parseLine (line ++ b!"0000") [] ⟨0, false⟩ = .ub := by
  refine ⟨⟨.ref (List.replicate 20 0) b!"HEAD" (some b!"ofs-delta"), ?_⟩, ?_, ?_⟩ <;> decide +kernel

/-- a `shallow` line whose text is not an id is accepted, with the id of its leading digits -/
theorem C41_shallow_garbage :
    parseLine (b!"0034shallow ab" ++ List.replicate 38 c!"z") [] recvData =
      .ok (.shallow ([0xab] ++ List.replicate 19 0), 52, recvData) := by
  decide +kernel

/-! ## The first line of the advertisement -/

theorem dropWhile_nil {α : Type} (p : α → Bool) (l : List α) (h : ∀ x ∈ l, p x = true) : l.dropWhile p = [] := by
  have := dropWhile_append_stop p l [] h (by simp)
  simpa using this

theorem refPkt_first {t id : Bytes} (ho : OidText t id) (x after : Bytes) (h9 : 9 ≤ (t ++ x ++ after).length)
    (hf : remoteType (t ++ x) after = .ok 1) :
    parsePayload (t ++ x) after ⟨0, false⟩ = refBody (t ++ x) ⟨1, false⟩ := by
  have h2 : parsePayload (t ++ x) after ⟨0, false⟩ = lastCases (t ++ x) after ⟨0, false⟩ := by
    have w := fun w c h1 h2 h3 => prefixEq_false (not_word ho x w c h1 h2 h3)
    have hl := oidText_length ho
    have hd : ∀ c, (hexVal c).isSome = false → (t ++ x).head? ≠ some c := by
      intro c hc he
      cases t with
      | nil => simp at hl
      | cons a t =>
        simp at he
        subst he
        have := mem_hex ho.2 a (by simp)
        rw [hc] at this; cases this
    unfold parsePayload
    rw [if_neg (hd 1 rfl), if_neg (hd 2 rfl), if_neg (hd 3 rfl),
      w b!"ACK" c!"K" (by decide) (by decide) (by decide), w b!"NAK" c!"K" (by decide) (by decide) (by decide),
      w b!"ERR" c!"R" (by decide) (by decide) (by decide), if_neg (hd 0x23 rfl),
      w b!"ok" c!"o" (by decide) (by decide) (by decide), w b!"ng" c!"n" (by decide) (by decide) (by decide),
      w b!"unpack" c!"u" (by decide) (by decide) (by decide)]
    simp
  rw [h2]
  unfold lastCases prefixcmp
  rw [strncmpEq_iff _ _ (by simpa using (by omega : 7 ≤ (t ++ x ++ after).length)), strncmpEq_iff _ _ (by simpa using h9)]
  have n1 : ¬ b!"shallow" <+: t ++ x ++ after := by
    rw [List.append_assoc]; exact not_word ho _ _ c!"s" (by decide) (by decide) (by decide)
  have n2 : ¬ b!"unshallow" <+: t ++ x ++ after := by
    rw [List.append_assoc]; exact not_word ho _ _ c!"u" (by decide) (by decide) (by decide)
  simp only [n1, n2, decide_false]
  unfold refPkt
  rw [if_pos (by rfl)]
  unfold setData
  rw [hf]
  rfl

theorem refBody_first {t id : Bytes} (h : OidText t id) (l : Bytes) (hne : l ≠ []) :
    refBody (t ++ b!" " ++ l) ⟨1, false⟩ =
      let text := chomp l
      let name := text.takeWhile (· ≠ 0)
      if name.length < text.length then
        .ok (.ref id name (some ((text.drop (name.length + 1)).takeWhile (· ≠ 0))), ⟨1, true⟩)
      else .ok (.ref id name none, ⟨1, true⟩) := by
  have hl := oidText_length h
  unfold refBody
  rw [if_neg (by decide)]
  have e5 : (t ++ b!" " ++ l).drop 40 = b!" " ++ l := by
    rw [List.append_assoc, List.drop_append_of_le_length (by omega), List.drop_of_length_le (by omega)]; rfl
  have e6 : (t ++ b!" " ++ l).take 40 = t := by
    rw [List.append_assoc, List.take_append_of_le_length (by omega), List.take_of_length_le (by omega)]
  rw [show hexsize (Data.mk 1 false).oidType = 40 from rfl, if_neg (by simp; omega),
    (readOid_iff _ (by simp; omega) id).mpr (by rw [e6]; exact h)]
  dsimp only
  rw [e5, (prefixEq_iff _ _).mpr ⟨l, rfl⟩, if_neg (by simp), if_neg (by simpa using hne)]
  rw [show (b!" " ++ l).drop 1 = l from rfl]
  simp

theorem dropWhile_no0 (a b : Bytes) (h : 0 ∉ a) : (a ++ 0 :: b).dropWhile (· ≠ 0) = 0 :: b := by
  refine dropWhile_append_stop _ _ _ ?_ ?_
  · intro y hy; simp; rintro rfl; exact h hy
  · intro y hy; simp at hy; simp [← hy]

theorem strstr_found (needle pre rest : Bytes) (h0 : 0 ∉ pre)
    (hno : ∀ k < pre.length, ¬ needle <+: (pre ++ (needle ++ rest)).drop k) (hne : needle ≠ []) :
    strstrAfter needle (pre ++ (needle ++ rest)) = .ok (some rest) := by
  induction pre with
  | nil =>
    cases needle with
    | nil => exact absurd rfl hne
    | cons a n =>
      simp only [List.nil_append, List.cons_append]
      rw [strstrAfter]
      have : (a :: n).isPrefixOf (a :: (n ++ rest)) = true := by
        rw [List.isPrefixOf_iff_prefix]; exact ⟨rest, rfl⟩
      rw [if_pos this]
      simp
  | cons c pre ih =>
    rw [List.cons_append, strstrAfter]
    have h1 := hno 0 (by simp)
    rw [List.drop_zero, List.cons_append, ← List.isPrefixOf_iff_prefix] at h1
    rw [if_neg h1, if_neg (by intro e; exact h0 (by simp [e]))]
    refine ih (fun h => h0 (by simp [h])) (fun k hk => ?_)
    have := hno (k + 1) (by simp; omega)
    simpa using this

theorem notMem_hex {t id : Bytes} (h : OidText t id) : (0 : UInt8) ∉ t := by
  intro hm
  have := mem_hex h.2 0 hm
  revert this; decide

/-- a first line without capabilities -/
theorem C41_first_plain {t id : Bytes} (ho : OidText t id) (name after : Bytes) (h0 : 0 ∉ name) :
    parsePayload (t ++ b!" " ++ name ++ b!"\n") after ⟨0, false⟩ = .ok (.ref id name none, ⟨1, true⟩) := by
  have hl := oidText_length ho
  have e : t ++ b!" " ++ name ++ b!"\n" = t ++ (b!" " ++ (name ++ b!"\n")) := by simp
  have hdw : (t ++ (b!" " ++ (name ++ b!"\n"))).dropWhile (· ≠ 0) = [] := by
    apply dropWhile_nil
    intro x hx
    have ht := notMem_hex ho
    simp at hx ⊢
    rintro rfl
    rcases hx with h | h | h | h
    · exact ht h
    · cases h
    · exact h0 h
    · cases h
  rw [e, refPkt_first ho _ _ (by simp; omega) (by unfold remoteType; rw [hdw]; rfl), ← List.append_assoc,
    refBody_first ho _ (by simp)]
  dsimp only
  rw [chomp_snoc]
  have hall : name.takeWhile (· ≠ 0) = name := by
    have := takeWhile_append_stop (fun x : UInt8 => decide (x ≠ 0)) name [] (fun x hx => by simp; rintro rfl; exact h0 hx) (by simp)
    simpa using this
  rw [hall, if_neg (by omega)]

/-- a first line whose capabilities name the object format (and end with a further one): the name, the capabilities and the id do not
depend on what follows the packet -/
theorem C41_first_caps {t id : Bytes} (ho : OidText t id) (name pre post after : Bytes) (h0 : 0 ∉ name) (h1 : 0 ∉ pre) (h2 : 0 ∉ post)
    (hpre : ¬ b!"object-format=" <+: pre ++ (b!" object-format=" ++ (b!"sha1 " ++ post)))
    (hno : ∀ k < pre.length, ¬ b!" object-format=" <+: (pre ++ (b!" object-format=" ++ (b!"sha1 " ++ post ++ b!"\n" ++ after))).drop k) :
    parsePayload (t ++ b!" " ++ (name ++ 0 :: (pre ++ b!" object-format=sha1 " ++ post) ++ b!"\n")) after ⟨0, false⟩ =
      .ok (.ref id name (some (pre ++ b!" object-format=sha1 " ++ post)), ⟨1, true⟩) := by
  have hl := oidText_length ho
  have ht := notMem_hex ho
  have e : t ++ b!" " ++ (name ++ 0 :: (pre ++ b!" object-format=sha1 " ++ post) ++ b!"\n") =
      t ++ (b!" " ++ (name ++ 0 :: (pre ++ b!" object-format=sha1 " ++ post) ++ b!"\n")) := by simp
  have e2 : t ++ (b!" " ++ (name ++ 0 :: (pre ++ b!" object-format=sha1 " ++ post) ++ b!"\n")) =
      (t ++ b!" " ++ name) ++ 0 :: (pre ++ (b!" object-format=" ++ (b!"sha1 " ++ post ++ b!"\n"))) := by simp
  have hdw : (t ++ (b!" " ++ (name ++ 0 :: (pre ++ b!" object-format=sha1 " ++ post) ++ b!"\n"))).dropWhile (· ≠ 0) =
      0 :: (pre ++ (b!" object-format=" ++ (b!"sha1 " ++ post ++ b!"\n"))) := by
    rw [e2]
    refine dropWhile_no0 _ _ ?_
    intro h
    simp at h
    rcases h with h | h
    · exact ht h
    · exact h0 h
  have hf : remoteType (t ++ (b!" " ++ (name ++ 0 :: (pre ++ b!" object-format=sha1 " ++ post) ++ b!"\n"))) after = .ok 1 := by
    unfold remoteType
    rw [hdw]
    dsimp only
    rw [if_pos (by simp; omega)]
    have ed : (0 :: (pre ++ (b!" object-format=" ++ (b!"sha1 " ++ post ++ b!"\n")))).drop 1 ++ after =
        pre ++ (b!" object-format=" ++ (b!"sha1 " ++ post ++ b!"\n" ++ after)) := by simp
    rw [ed]
    have hff : findFormat (pre ++ (b!" object-format=" ++ (b!"sha1 " ++ post ++ b!"\n" ++ after))) =
        .ok (some (b!"sha1 " ++ post ++ b!"\n" ++ after)) := by
      unfold findFormat
      have hn : ¬ b!"object-format=" <+: pre ++ (b!" object-format=" ++ (b!"sha1 " ++ post ++ b!"\n" ++ after)) := by
        intro hp
        apply hpre
        have e3 : pre ++ (b!" object-format=" ++ (b!"sha1 " ++ post ++ b!"\n" ++ after)) =
            pre ++ (b!" object-format=" ++ (b!"sha1 " ++ post)) ++ (b!"\n" ++ after) := by simp
        rw [e3] at hp
        exact List.prefix_of_prefix_length_le hp (List.prefix_append _ _) (by simp; omega)
      rw [strncmpEq_iff _ _ (by simp; omega)]
      simp only [hn, decide_false]
      exact strstr_found _ _ _ h1 hno (by simp)
    rw [hff]
    dsimp only
    simp [formatWord]
  rw [e, refPkt_first ho _ _ (by simp; omega) hf, ← List.append_assoc, refBody_first ho _ (by simp)]
  dsimp only
  rw [chomp_snoc, takeWhile_not _ _ _ h0, if_pos (by simp)]
  have ed : (name ++ 0 :: (pre ++ b!" object-format=sha1 " ++ post)).drop (name.length + 1) = pre ++ b!" object-format=sha1 " ++ post := by
    simp
  rw [ed]
  have hall : (pre ++ b!" object-format=sha1 " ++ post).takeWhile (· ≠ 0) = pre ++ b!" object-format=sha1 " ++ post := by
    have := takeWhile_append_stop (fun x : UInt8 => decide (x ≠ 0)) (pre ++ b!" object-format=sha1 " ++ post) []
      (fun x hx => by
        simp only [ne_eq, decide_eq_true_eq]; rintro rfl
        rcases List.mem_append.mp hx with hx | h
        · rcases List.mem_append.mp hx with h | h
          · exact h1 h
          · revert h; decide
        · exact h2 h) (by simp)
    simpa using this
  rw [hall]

/-! ## Writing -/

theorem hexChar_digit : ∀ n : Fin 16, hexChar n.val = digit16 n.val := by decide +kernel

theorem hex04_eq (n : Nat) (h : n < 65536) :
    hex04 n = [digit16 (n / 4096 % 16), digit16 (n / 256 % 16), digit16 (n / 16 % 16), digit16 (n % 16)] := by
  have hc : ∀ m, m < 16 → hexChar m = digit16 m := fun m hm => hexChar_digit ⟨m, hm⟩
  have h0 : digit16 0 = 0x30 := by decide
  unfold hex04
  by_cases h1 : n < 16
  · have : hexNum n = [hexChar n] := by rw [hexNum, dif_pos h1]
    rw [this, hc n h1, show n / 4096 % 16 = 0 by omega, show n / 256 % 16 = 0 by omega, show n / 16 % 16 = 0 by omega,
      show n % 16 = n by omega, h0]
    rfl
  · by_cases h2 : n < 256
    · have : hexNum n = [hexChar (n / 16), hexChar (n % 16)] := by
        rw [hexNum, dif_neg h1, hexNum, dif_pos (by omega)]; rfl
      rw [this, hc _ (by omega), hc _ (by omega), show n / 4096 % 16 = 0 by omega, show n / 256 % 16 = 0 by omega,
        show n / 16 % 16 = n / 16 by omega, h0]
      rfl
    · by_cases h3 : n < 4096
      · have : hexNum n = [hexChar (n / 16 / 16), hexChar (n / 16 % 16), hexChar (n % 16)] := by
          rw [hexNum, dif_neg h1, hexNum, dif_neg (by omega), hexNum, dif_pos (by omega)]; rfl
        rw [this, hc _ (by omega), hc _ (by omega), hc _ (by omega), show n / 4096 % 16 = 0 by omega,
          show n / 256 % 16 = n / 16 / 16 by omega, h0]
        rfl
      · have : hexNum n = [hexChar (n / 16 / 16 / 16), hexChar (n / 16 / 16 % 16), hexChar (n / 16 % 16), hexChar (n % 16)] := by
          rw [hexNum, dif_neg h1, hexNum, dif_neg (by omega), hexNum, dif_neg (by omega), hexNum, dif_pos (by omega)]; rfl
        rw [this, hc _ (by omega), hc _ (by omega), hc _ (by omega), hc _ (by omega),
          show n / 4096 % 16 = n / 16 / 16 / 16 by omega, show n / 256 % 16 = n / 16 / 16 % 16 by omega]
        rfl

/-- a written packet line of a payload that is not too long is read as a line with that payload -/
theorem C41_pktline (payload : Bytes) (hne : payload ≠ []) (hl : payload.length + 4 < 65536) : DataLine (pktline payload) payload := by
  refine ⟨_, ?_, rfl, hne⟩
  have hv : ∀ n, n < 16 → hexVal (digit16 n) = some (UInt8.ofNat n) := by
    intro n hn
    exact Oid.hexVal_digit _ (by simp [UInt8.lt_iff_toNat_lt]; omega)
  generalize payload.length + 4 = n at hl
  refine ⟨_, _, _, _, by
    simp only [List.mapM_cons, List.mapM_nil]
    rw [hv _ (by omega), hv _ (by omega), hv _ (by omega), hv _ (by omega)]; rfl, ?_⟩
  simp
  omega

/-- `git_pkt_buffer_have` -/
theorem C41_have (oid : Bytes) (h : oid.length = 20) : bufferHave oid = .ok (pktline (b!"have " ++ hex oid ++ b!"\n")) := by
  unfold bufferHave
  have := Oid.C02_fmt oid
  rw [h] at this
  rw [this]
  dsimp only
  rw [hex04_eq _ (by omega)]
  unfold pktline
  have : (b!"have " ++ hex oid ++ b!"\n").length + 4 = 4 + 5 + 40 + 1 := by simp [h]
  rw [this]
  simp

theorem C41_done : bufferDone = pktline b!"done\n" := by decide +kernel

/-- one request line -/
def wantLine (oid : Bytes) : Bytes := pktline (b!"want " ++ hex oid ++ b!"\n")

theorem wantLoop_eq (ws : List Want) (h : ∀ w ∈ ws, w.oid.length = 20) :
    wantLoop ws = .ok ((ws.filter (!·.localRef)).flatMap fun w => wantLine w.oid) := by
  induction ws with
  | nil => rfl
  | cons w ws ih =>
    rw [wantLoop, ih (fun x hx => h x (by simp [hx]))]
    by_cases hl : w.localRef = true
    · simp [hl]
    · rw [if_neg hl]
      have hf := Oid.C02_fmt w.oid
      rw [h w (by simp)] at hf
      rw [hf]
      dsimp only
      rw [hex04_eq _ (by omega)]
      have e : (b!"want " ++ hex w.oid ++ b!"\n").length + 4 = 4 + 5 + 40 + 1 := by simp [h w (by simp)]
      simp [hl, wantLine, pktline, h w (by simp)]

theorem shallowLoop_eq (os : List Bytes) (h : ∀ o ∈ os, o.length = 20) :
    shallowLoop os = .ok (os.flatMap fun o => pktline (b!"shallow " ++ hex o ++ b!"\n")) := by
  induction os with
  | nil => rfl
  | cons o os ih =>
    rw [shallowLoop, ih (fun x hx => h x (by simp [hx]))]
    have hf := Oid.C02_fmt o
    rw [h o (by simp)] at hf
    rw [hf]
    dsimp only
    rw [hex04_eq _ (by simp [h o (by simp)])]
    simp [pktline]

theorem capsText_length (c : Caps) : (capsText c).length ≤ 100 := by
  unfold capsText
  rcases c with ⟨a, b, c, d, e, f, g, h, i⟩
  revert a b c d e f g h i
  decide +kernel

theorem decimal_length_le (n : Nat) (h : n < 2 ^ 31) : (decimal n).length ≤ 10 := by
  have := decimal_length 9 n (by omega)
  simpa using this

/-- the request: every line is well framed, in the order of the references, the first one carries the capabilities, then the shallow
roots, the depth, and a flush. Needs a reference that is not local when capabilities are sent (`C41_wants_none`). -/
theorem C41_wants (refs : List Want) (c : Caps) (roots : List Bytes) (depth : Int) (hr : ∀ w ∈ refs, w.oid.length = 20)
    (ho : ∀ o ∈ roots, o.length = 20) (hd : depth < 2 ^ 31) (w : Want) (ws : List Want)
    (hw : refs.filter (!·.localRef) = w :: ws) :
    bufferWants refs c roots depth = .ok (
      (if c.common then pktline (b!"want " ++ hex w.oid ++ b!" " ++ capsText c ++ b!"\n") else wantLine w.oid) ++
      (ws.flatMap fun w => wantLine w.oid) ++
      (roots.flatMap fun o => pktline (b!"shallow " ++ hex o ++ b!"\n")) ++
      (if depth > 0 then pktline (b!"deepen " ++ decimalInt depth ++ b!"\n") else []) ++ b!"0000") := by
  have hdeep : deepen depth = if depth > 0 then pktline (b!"deepen " ++ decimalInt depth ++ b!"\n") else [] := by
    unfold deepen
    split
    · rename_i hp
      have hlen : (decimalInt depth).length ≤ 11 := by
        unfold decimalInt
        rw [if_neg (by omega)]
        have := decimal_length_le depth.natAbs (by omega)
        omega
      dsimp only
      rw [hex04_eq _ (by simp; omega)]
      simp [pktline]
    · rfl
  have hcw : w ∈ refs := by
    have : w ∈ refs.filter (!·.localRef) := by rw [hw]; simp
    exact (List.mem_filter.mp this).1
  unfold bufferWants
  by_cases hc : c.common = true
  · have hsplit : ∀ (l : List Want), l.filter (!·.localRef) = w :: ws →
        ∃ r, l.dropWhile (·.localRef) = w :: r ∧ r.filter (!·.localRef) = ws ∧ ∀ x ∈ r, x ∈ l := by
      intro l
      induction l with
      | nil => intro h; cases h
      | cons x l ih =>
        intro h
        by_cases hx : x.localRef = true
        · simp [hx] at h
          obtain ⟨r, h1, h2, h3⟩ := ih (by simpa using h)
          exact ⟨r, by simp [hx, h1], h2, fun y hy => by simp [h3 y hy]⟩
        · simp [hx] at h
          refine ⟨l, by rw [List.dropWhile_cons, if_neg (by simpa using hx), h.1], h.2, fun y hy => by simp [hy]⟩
    obtain ⟨r, h1, h2, h3⟩ := hsplit refs hw
    have hfirst : firstWant refs c = .ok (pktline (b!"want " ++ hex w.oid ++ b!" " ++ capsText c ++ b!"\n"), r) := by
      unfold firstWant
      rw [if_pos hc, h1]
      dsimp only
      have hf := Oid.C02_fmt w.oid
      rw [hr w hcw] at hf
      have hcl := capsText_length c
      unfold wantWithCaps
      rw [hf]
      dsimp only
      rw [if_neg (by omega)]
      dsimp only
      rw [hex04_eq _ (by omega)]
      have e : (b!"want " ++ hex w.oid ++ b!" " ++ capsText c ++ b!"\n").length + 4 = 4 + 5 + 40 + 1 + (capsText c).length + 1 := by
        simp [hr w hcw]; omega
      unfold pktline
      rw [e]
      simp
    rw [hfirst, Res.bind_ok]
    dsimp only
    rw [wantLoop_eq r (fun x hx => hr x (h3 x hx)), Res.bind_ok, shallowLoop_eq roots ho, Res.bind_ok, hdeep, h2, if_pos hc]
    rfl
  · have hfirst : firstWant refs c = .ok ([], refs) := by unfold firstWant; rw [if_neg hc]
    rw [hfirst, Res.bind_ok]
    dsimp only
    rw [wantLoop_eq refs hr, Res.bind_ok, shallowLoop_eq roots ho, Res.bind_ok, hdeep, hw, if_neg hc]
    simp [bufferFlush]

/-- with capabilities and only local references the code reads behind the array of references -/
theorem C41_wants_none (refs : List Want) (c : Caps) (roots : List Bytes) (depth : Int) (hc : c.common = true)
    (h : ∀ w ∈ refs, w.localRef = true) : bufferWants refs c roots depth = .ub := by
  have : refs.dropWhile (·.localRef) = [] := dropWhile_nil _ _ h
  unfold bufferWants firstWant
  rw [if_pos hc, this]
  rfl

/-! ## Concrete cases -/

/-- the environment of the examples: reads of 3 bytes, nine zero bytes behind the buffer -/
def env3 : Env := fun _ => (3, List.replicate 9 0)

example : ∀ i, 9 ≤ (env3 i).2.length := by intro i; simp [env3]

example : recvAll env3 60 ⟨[], b!"0008NAK\n0009\x02abcd00000", 0⟩ = ([.nak, .progress b!"abcd", .flush], EEOF) := by decide +kernel

example : recvAll (fun _ => (1000, List.replicate 9 0)) 60 ⟨b!"00", b!"08NAK\n0009\x02abcd00000", 7⟩ =
    ([.nak, .progress b!"abcd", .flush], EEOF) := by decide +kernel

example : recvAll env3 60 ⟨[], b!"0003zzzz", 0⟩ = ([], -1) := by decide +kernel

example : bufferWants [⟨List.replicate 20 0x11, true⟩, ⟨List.replicate 20 0xab, false⟩]
    ⟨true, false, true, true, false, false, false, true, false⟩ [] 0 =
    .ok (b!"0055want " ++ (List.replicate 20 b!"ab").flatten ++ b!" multi_ack side-band-64k ofs-delta \n0000") := by decide +kernel

example : OidText (List.replicate 40 c!"a") (List.replicate 20 0xaa) := ⟨rfl, by decide +kernel⟩

/-- **C41.** Capabilities that begin with `object-format=`: the word behind it decides, `sha1` is accepted and anything else refused. -/
theorem C41_format_first (pre w post after : Bytes) (h0 : (0 : UInt8) ∉ pre) (hw : ∀ c ∈ w, c ≠ 0x20 ∧ c ≠ 0) :
    remoteType (pre ++ 0 :: (b!"object-format=" ++ (w ++ b!" " ++ post))) after = if w = b!"sha1" then .ok 1 else .err (-1) := by
  unfold remoteType
  rw [dropWhile_no0 _ _ h0]
  dsimp only
  rw [if_pos (by simp)]
  have ed : (0 :: (b!"object-format=" ++ (w ++ b!" " ++ post))).drop 1 ++ after = b!"object-format=" ++ (w ++ 0x20 :: (post ++ after)) := by simp
  have hff : findFormat (b!"object-format=" ++ (w ++ 0x20 :: (post ++ after))) = .ok (some (w ++ 0x20 :: (post ++ after))) := by
    unfold findFormat
    rw [strncmpEq_iff _ _ (by simp)]
    have : b!"object-format=" <+: b!"object-format=" ++ (w ++ 0x20 :: (post ++ after)) := List.prefix_append _ _
    simp only [this, decide_true]
    rfl
  rw [ed, hff]
  dsimp only
  clear ed hff
  have hfw : formatWord (w ++ 0x20 :: (post ++ after)) = .ok w := by
    induction w with
    | nil => simp [formatWord]
    | cons c w ih =>
      have hc := hw c (by simp)
      rw [List.cons_append, formatWord, if_neg (by simp [hc.1, hc.2]), ih (fun d hd => hw d (by simp [hd]))]
      rfl
  rw [hfw]

/-- capabilities are looked at even when they are a single byte -/
theorem C41_caps_single (pre after : Bytes) (c : UInt8) (h0 : (0 : UInt8) ∉ pre) :
    remoteType (pre ++ [0, c]) after = match findFormat (c :: after) with
      | .ub => .ub
      | .err e => .err e
      | .ok none => .ok 1
      | .ok (some s) => match formatWord s with
        | .ub => .ub
        | .err e => .err e
        | .ok w => if w = b!"sha1" then .ok 1 else .err (-1) := by
  unfold remoteType
  rw [dropWhile_no0 _ _ h0]
  rfl

end Verif.Pkt
