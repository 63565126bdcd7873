import Verif.Pkt.Lemmas
/-! # Payloads received after the advertisement (`seen_capabilities = 1`) -/
namespace Verif.Pkt
open Verif.Pkt.Spec Verif.Oid.Spec

theorem prefix_drop {p s : Bytes} (h : p <+: s) : s = p ++ s.drop p.length := by
  obtain ⟨t, rfl⟩ := h; simp

theorem oid_split {line id : Bytes} (hl : 40 ≤ line.length) (h : OidText (line.take 40) id) :
    line = line.take 40 ++ line.drop 40 := (List.take_append_drop 40 line).symm

theorem ackPkt_sound (line : Bytes) (p : Pkt) (h : ackPkt line recvData = .ok p) : Means line p := by
  unfold ackPkt at h
  rw [if_neg (by decide)] at h
  split at h
  · cases h
  rename_i hp
  have hp' : b!"ACK " <+: line := (prefixEq_iff _ _).mp (by simpa using hp)
  have e := prefix_drop hp'
  generalize hl : line.drop 4 = l at h
  rw [show (b!"ACK ").length = 4 from rfl, hl] at e
  dsimp only at h
  split at h
  · cases h
  rename_i h40
  have h40 : 40 ≤ l.length := by simp [hexsize, recvData] at h40; omega
  rcases readOid_cases l h40 with ⟨id, e1, e2⟩ | ⟨e1, e2⟩
  · rw [e1] at h
    dsimp only at h
    have e3 := oid_split h40 e2
    rw [show hexsize recvData.oidType = 40 from rfl] at h
    generalize l.take 40 = t at *
    generalize hr : l.drop 40 = r at *
    unfold ackStatus at h
    by_cases hh : r.head? = some 0x20
    · rw [if_pos hh] at h
      obtain ⟨r', rfl⟩ : ∃ r', r = 0x20 :: r' := by
        cases r with
        | nil => simp at hh
        | cons c r' => simp at hh; exact ⟨r', by rw [hh]⟩
      rw [show (0x20 :: r').drop 1 = r' from rfl] at h
      dsimp only at h
      by_cases h1 : Loose.prefixEq r' b!"continue" = true
      · rw [if_pos h1] at h
        have := prefix_drop ((prefixEq_iff _ _).mp h1)
        cases h
        rw [e, e3, this]
        simpa using Means.ackContinue (r'.drop 8) e2
      rw [if_neg h1] at h
      by_cases h1 : Loose.prefixEq r' b!"common" = true
      · rw [if_pos h1] at h
        have := prefix_drop ((prefixEq_iff _ _).mp h1)
        cases h
        rw [e, e3, this]
        simpa using Means.ackCommon (r'.drop 6) e2
      rw [if_neg h1] at h
      by_cases h1 : Loose.prefixEq r' b!"ready" = true
      · rw [if_pos h1] at h
        have := prefix_drop ((prefixEq_iff _ _).mp h1)
        cases h
        rw [e, e3, this]
        simpa using Means.ackReady (r'.drop 5) e2
      rw [if_neg h1] at h
      cases h
    · rw [if_neg hh] at h
      cases h
      rw [e, e3]
      simpa using Means.ack r e2 hh
  · rw [e1] at h; cases h

theorem chomp_cases (s : Bytes) : (s.getLast? ≠ some c!"\n" ∧ chomp s = s) ∨ (∃ t, s = t ++ b!"\n" ∧ chomp s = t) := by
  unfold chomp
  by_cases h : s.getLast? = some 10
  · right
    rw [if_pos h]
    refine ⟨s.dropLast, ?_, rfl⟩
    have hne : s ≠ [] := by rintro rfl; simp at h
    have hl : s.getLast hne = 10 := by rw [List.getLast?_eq_some_getLast hne] at h; simpa using h
    conv => lhs; rw [← List.dropLast_concat_getLast hne, hl]
  · left; rw [if_neg h]; exact ⟨h, rfl⟩

theorem chomp_snoc (t : Bytes) : chomp (t ++ b!"\n") = t := by simp [chomp]
theorem chomp_id (t : Bytes) (h : t.getLast? ≠ some c!"\n") : chomp t = t := by simp [chomp, h]

theorem takeWhile_split (p : UInt8 → Bool) (l : Bytes) (h : (l.takeWhile p).length ≠ l.length) :
    ∃ c r, p c = false ∧ l = l.takeWhile p ++ c :: r ∧ l.drop ((l.takeWhile p).length + 1) = r := by
  have e := List.takeWhile_append_dropWhile (p := p) (l := l)
  cases hd : l.dropWhile p with
  | nil => rw [hd, List.append_nil] at e; rw [e] at h; exact absurd rfl h
  | cons c r =>
    refine ⟨c, r, dropWhile_head p l c (by rw [hd]; rfl), by rw [← hd, e], ?_⟩
    have e2 : l = l.takeWhile p ++ c :: r := by rw [← hd, e]
    generalize l.takeWhile p = t at *
    subst e2
    simp

theorem takeWhile_not (x : UInt8) (a b : Bytes) (h : x ∉ a) : (a ++ x :: b).takeWhile (· ≠ x) = a := by
  refine takeWhile_append_stop _ _ _ ?_ ?_
  · intro y hy; simp; rintro rfl; exact h hy
  · intro y hy; simp at hy; simp [hy]

theorem ngPkt_sound (line : Bytes) (p : Pkt) (h : ngPkt line = .ok p) : Means line p := by
  unfold ngPkt at h
  split at h
  · cases h
  rename_i hp
  have e := prefix_drop ((prefixEq_iff _ _).mp (by simpa using hp) : b!"ng " <+: line)
  generalize hl : line.drop 3 = l at h
  rw [show (b!"ng ").length = 3 from rfl, hl] at e
  dsimp only at h
  split at h
  · cases h
  rename_i h1
  obtain ⟨c, r, hc, hs, hd⟩ := takeWhile_split _ l h1
  rw [hd] at h
  have hc : c = 0x20 := by simpa using hc
  subst hc
  split at h
  · cases h
  split at h
  · cases h
  rename_i h2
  obtain ⟨c, r2, hc, hs2, hd2⟩ := takeWhile_split _ r h2
  have hc : c = 0x0a := by simpa using hc
  subst hc
  cases h
  have := Means.ng (l.takeWhile (· ≠ 0x20)) (r.takeWhile (· ≠ 0x0a)) r2
    (fun hh => by simpa using takeWhile_all _ _ _ hh) (fun hh => by simpa using takeWhile_all _ _ _ hh)
  rw [e]
  have e1 : b!"ng " ++ l = b!"ng " ++ (l.takeWhile (· ≠ 0x20)) ++ b!" " ++ (r.takeWhile (· ≠ 0x0a)) ++ b!"\n" ++ r2 := by
    conv => lhs; rw [hs, hs2]
    simp
  rw [e1]
  exact this

theorem okPkt_sound (line : Bytes) (p : Pkt) (h : okPkt line = .ok p) : Means line p := by
  unfold okPkt at h
  split at h
  · cases h
  rename_i hp
  have e := prefix_drop ((prefixEq_iff _ _).mp (by simpa using hp) : b!"ok " <+: line)
  rw [show (b!"ok ").length = 3 from rfl] at e
  generalize line.drop 3 = l at *
  cases h
  rw [e]
  rcases chomp_cases l with ⟨h1, h2⟩ | ⟨t, h1, h2⟩
  · rw [h2]; exact .ok l h1
  · rw [h2, h1]; simpa using Means.okNl t

theorem errPkt_sound (line : Bytes) (p : Pkt) (h : errPkt line = .ok p) : Means line p := by
  unfold errPkt at h
  split at h
  · cases h
  rename_i hp
  have e := prefix_drop ((prefixEq_iff _ _).mp (by simpa using hp) : b!"ERR " <+: line)
  rw [show (b!"ERR ").length = 4 from rfl] at e
  generalize line.drop 4 = l at *
  cases h
  rw [e]
  exact .err l

theorem unpackPkt_sound (line : Bytes) (p : Pkt) (hp : Loose.prefixEq line b!"unpack" = true) (h : unpackPkt line = .ok p) :
    Means line p := by
  unfold unpackPkt at h
  have e := prefix_drop ((prefixEq_iff _ _).mp hp)
  rw [show (b!"unpack").length = 6 from rfl] at e
  cases h
  cases hb : Loose.prefixEq line b!"unpack ok" with
  | true =>
    have e2 := prefix_drop ((prefixEq_iff _ _).mp hb)
    rw [e2]
    exact .unpackOk _
  | false =>
    rw [e]
    refine .unpackFailed _ ?_
    intro hh
    have : b!"unpack ok" <+: line := by
      obtain ⟨u, hu⟩ := hh
      exact ⟨u, by rw [e, ← hu]; simp⟩
    rw [(prefixEq_iff _ _).mpr this] at hb
    cases hb

theorem shallowPkt_sound (word : Bytes) (mk : Bytes → Pkt) (line : Bytes) (p : Pkt) (h : shallowPkt word mk line recvData = .ok p) :
    ∃ t, t.length = 40 ∧ line = word ++ t ∧ ((∃ id, OidText t id ∧ p = mk id) ∨ (t.mapM hexVal = none ∧ ∃ id, p = mk id)) := by
  unfold shallowPkt at h
  rw [if_neg (by decide)] at h
  split at h
  · cases h
  rename_i hp
  have e := prefix_drop ((prefixEq_iff _ _).mp (by simpa using hp) : word <+: line)
  dsimp only at h
  split at h
  · cases h
  rename_i hl
  have hl : (line.drop word.length).length = 40 := by simpa [hexsize, recvData] using hl
  generalize line.drop word.length = t at *
  cases h
  refine ⟨t, hl, e, ?_⟩
  rcases readOid_cases t (by omega) with ⟨id, e1, e2⟩ | ⟨e1, e2⟩
  · rw [List.take_of_length_le (by omega)] at e2
    exact .inl ⟨id, e2, by rw [lenient_oid e2]⟩
  · rw [List.take_of_length_le (by omega)] at e2
    exact .inr ⟨e2, _, rfl⟩

theorem refBody_sound (line : Bytes) (p : Pkt) (d : Data) (h : refBody line recvData = .ok (p, d)) : Means line p ∧ d = recvData := by
  unfold refBody at h
  rw [if_neg (by decide)] at h
  split at h
  · cases h
  rename_i h40
  have h40 : 40 ≤ line.length := by simp [hexsize, recvData] at h40; omega
  rcases readOid_cases line h40 with ⟨id, e1, e2⟩ | ⟨e1, e2⟩
  · rw [e1] at h
    dsimp only at h
    have e3 := oid_split h40 e2
    rw [show hexsize recvData.oidType = 40 from rfl] at h
    generalize line.take 40 = t at *
    generalize line.drop 40 = r at *
    split at h
    · cases h
    rename_i hp
    have e4 := prefix_drop ((prefixEq_iff _ _).mp (by simpa using hp) : b!" " <+: r)
    rw [show (b!" ").length = 1 from rfl] at e4
    generalize r.drop 1 = l at *
    split at h
    · cases h
    rename_i hne
    split at h
    · rw [if_neg (by decide)] at h; cases h
    · rename_i hlen
      have hall : (chomp l).takeWhile (· ≠ 0) = chomp l := by
        have := List.takeWhile_prefix (p := fun x : UInt8 => decide (x ≠ 0)) (l := chomp l)
        exact this.eq_of_length (by have := this.length_le; omega)
      have h0 : (0 : UInt8) ∉ chomp l := by
        intro hm
        rw [← hall] at hm
        simpa using takeWhile_all _ _ _ hm
      cases h
      refine ⟨?_, rfl⟩
      rw [e3, e4, hall]
      rcases chomp_cases l with ⟨h1, h2⟩ | ⟨t', h1, h2⟩
      · rw [h2] at h0 ⊢
        simpa using Means.ref l e2 h0 hne h1
      · rw [h2] at h0 ⊢
        rw [h1]
        simpa using Means.refNl t' e2 h0
  · rw [e1] at h; cases h

theorem mem_hex {t : Bytes} {vs : List UInt8} (h : t.mapM hexVal = some vs) : ∀ c ∈ t, (hexVal c).isSome = true := by
  induction t generalizing vs with
  | nil => simp
  | cons a t ih =>
    obtain ⟨v, ws, h1, h2, _⟩ := mapM_some_cons h
    intro c hc
    rcases List.mem_cons.mp hc with rfl | hc
    · rw [h1]; rfl
    · exact ih h2 c hc

/-- a word with a character that is no digit is not the beginning of a reference line -/
theorem not_word {t id : Bytes} (h : OidText t id) (x w : Bytes) (c : UInt8) (hc : c ∈ w) (hx : (hexVal c).isSome = false)
    (hw : w.length ≤ 40) : ¬ w <+: t ++ x := by
  intro hp
  have hl := oidText_length h
  have : w <+: t := List.prefix_of_prefix_length_le hp (List.prefix_append t x) (by omega)
  obtain ⟨u, hu⟩ := this
  have := mem_hex h.2 c (by rw [← hu]; simp [hc])
  rw [hx] at this; cases this

theorem prefixEq_false {s w : Bytes} (h : ¬ w <+: s) : Loose.prefixEq s w = false := by
  cases e : Loose.prefixEq s w with
  | false => rfl
  | true => exact absurd ((prefixEq_iff _ _).mp e) h

theorem ack_complete {t id : Bytes} (h : OidText t id) (r : Bytes) :
    ackPkt (b!"ACK " ++ t ++ r) recvData = (match ackStatus r with | some st => .ok (.ack id st) | none => .err (-1)) := by
  have hl := oidText_length h
  unfold ackPkt
  rw [if_neg (by decide), (prefixEq_iff _ _).mpr ⟨t ++ r, by simp⟩, if_neg (by simp)]
  have e4 : (b!"ACK " ++ t ++ r).drop 4 = t ++ r := by simp
  rw [e4]
  have e5 : (t ++ r).drop 40 = r := by rw [List.drop_append_of_le_length (by omega), List.drop_of_length_le (by omega)]; rfl
  have e6 : (t ++ r).take 40 = t := by rw [List.take_append_of_le_length (by omega), List.take_of_length_le (by omega)]
  dsimp only
  rw [show hexsize recvData.oidType = 40 from rfl, if_neg (by simp; omega),
    (readOid_iff (t ++ r) (by simp; omega) id).mpr (by rw [e6]; exact h)]
  dsimp only
  rw [e5]
  cases ackStatus r <;> rfl

theorem refBody_complete {t id : Bytes} (h : OidText t id) (l : Bytes) (hne : l ≠ []) (h0 : 0 ∉ chomp l) :
    refBody (t ++ b!" " ++ l) recvData = .ok (.ref id (chomp l) none, recvData) := by
  have hl := oidText_length h
  unfold refBody
  rw [if_neg (by decide)]
  have e5 : (t ++ b!" " ++ l).drop 40 = b!" " ++ l := by
    rw [List.append_assoc, List.drop_append_of_le_length (by omega), List.drop_of_length_le (by omega)]; rfl
  have e6 : (t ++ b!" " ++ l).take 40 = t := by
    rw [List.append_assoc, List.take_append_of_le_length (by omega), List.take_of_length_le (by omega)]
  rw [show hexsize recvData.oidType = 40 from rfl, if_neg (by simp; omega),
    (readOid_iff _ (by simp; omega) id).mpr (by rw [e6]; exact h)]
  dsimp only
  rw [e5, (prefixEq_iff _ _).mpr ⟨l, rfl⟩, if_neg (by simp), if_neg (by simpa using hne)]
  have e7 : (b!" " ++ l).drop 1 = l := rfl
  rw [e7]
  have hall : (chomp l).takeWhile (· ≠ 0) = chomp l := by
    have := takeWhile_append_stop (fun x : UInt8 => decide (x ≠ 0)) (chomp l) []
      (fun x hx => by simp; rintro rfl; exact h0 hx) (by simp)
    simpa using this
  rw [hall, if_neg (by omega)]
  rfl

theorem ng_complete (ref msg rest : Bytes) (h1 : c!" " ∉ ref) (h2 : c!"\n" ∉ msg) :
    ngPkt (b!"ng " ++ ref ++ b!" " ++ msg ++ b!"\n" ++ rest) = .ok (.ng ref msg) := by
  unfold ngPkt
  rw [(prefixEq_iff _ _).mpr ⟨ref ++ b!" " ++ msg ++ b!"\n" ++ rest, by simp⟩, if_neg (by simp)]
  have e : (b!"ng " ++ ref ++ b!" " ++ msg ++ b!"\n" ++ rest).drop 3 = ref ++ c!" " :: (msg ++ c!"\n" :: rest) := by simp
  rw [e]
  dsimp only
  rw [takeWhile_not _ _ _ h1, if_neg (by simp)]
  have e2 : (ref ++ c!" " :: (msg ++ c!"\n" :: rest)).drop (ref.length + 1) = msg ++ c!"\n" :: rest := by simp
  rw [e2, if_neg (by simp), takeWhile_not _ _ _ h2, if_neg (by simp)]

theorem shallow_complete {t id : Bytes} (h : OidText t id) (word : Bytes) (mk : Bytes → Pkt) :
    shallowPkt word mk (word ++ t) recvData = .ok (mk id) := by
  unfold shallowPkt
  rw [if_neg (by decide), (prefixEq_iff _ _).mpr ⟨t, rfl⟩, if_neg (by simp)]
  dsimp only
  rw [List.drop_left, show hexsize recvData.oidType = 40 from rfl, if_neg (by simp [oidText_length h]), lenient_oid h]

theorem lastCases_eq (payload after : Bytes) (h9 : 9 ≤ (payload ++ after).length) :
    lastCases payload after recvData =
      if b!"shallow" <+: payload ++ after then keep recvData (shallowPkt b!"shallow " .shallow payload recvData)
      else if b!"unshallow" <+: payload ++ after then keep recvData (shallowPkt b!"unshallow " .unshallow payload recvData)
      else refBody payload recvData := by
  unfold lastCases prefixcmp
  rw [strncmpEq_iff _ _ (by simpa using (by omega : 7 ≤ (payload ++ after).length)), strncmpEq_iff _ _ (by simpa using h9)]
  by_cases h1 : b!"shallow" <+: payload ++ after
  · simp [h1]
  · by_cases h2 : b!"unshallow" <+: payload ++ after
    · simp [h1, h2]
    · simp only [h1, h2, decide_false, if_false]; rfl

theorem shallow_short (word : Bytes) (mk : Bytes → Pkt) (payload : Bytes) (h : payload.length < 40) :
    shallowPkt word mk payload recvData = .err (-1) := by
  unfold shallowPkt
  rw [if_neg (by decide)]
  split
  · rfl
  dsimp only
  rw [if_pos]
  rw [show hexsize recvData.oidType = 40 from rfl, List.length_drop]
  omega

theorem ref_short (payload : Bytes) (h : payload.length < 40) : refBody payload recvData = .err (-1) := by
  unfold refBody
  rw [if_neg (by decide), if_pos (by rw [show hexsize recvData.oidType = 40 from rfl]; exact h)]

theorem prefix_append_left (w s x : Bytes) (h : w.length ≤ s.length) : w <+: s ++ x ↔ w <+: s :=
  ⟨fun hp => List.prefix_of_prefix_length_le hp (List.prefix_append s x) h, fun hp => hp.trans (List.prefix_append s x)⟩

/-- nothing behind the payload matters -/
theorem lastCases_independent (payload after : Bytes) (h9 : 9 ≤ (payload ++ after).length) :
    lastCases payload after recvData =
      if b!"shallow" <+: payload then keep recvData (shallowPkt b!"shallow " .shallow payload recvData)
      else if b!"unshallow" <+: payload then keep recvData (shallowPkt b!"unshallow " .unshallow payload recvData)
      else refBody payload recvData := by
  rw [lastCases_eq _ _ h9]
  by_cases hl : payload.length < 40
  · rw [shallow_short _ _ _ hl, shallow_short _ _ _ hl, ref_short _ hl]
    simp [keep]
  · simp only [prefix_append_left b!"shallow" payload after (by simp; omega), prefix_append_left b!"unshallow" payload after (by simp; omega)]

theorem payload_independent (payload a b : Bytes) (ha : 9 ≤ (payload ++ a).length) (hb : 9 ≤ (payload ++ b).length) :
    parsePayload payload a recvData = parsePayload payload b recvData := by
  have : lastCases payload a recvData = lastCases payload b recvData := by
    rw [lastCases_independent _ _ ha, lastCases_independent _ _ hb]
  unfold parsePayload
  rw [this]

@[simp] theorem prefixEq_nil (s : Bytes) : Loose.prefixEq s [] = true := by cases s <;> rfl

/-- reference lines reach the last case -/
theorem ref_dispatch {t id : Bytes} (h : OidText t id) (x after : Bytes) :
    parsePayload (t ++ x) after recvData = lastCases (t ++ x) after recvData := by
  have hl := oidText_length h
  have w := fun w c h1 h2 h3 => prefixEq_false (not_word h x w c h1 h2 h3)
  have hd : ∀ c, (hexVal c).isSome = false → (t ++ x).head? ≠ some c := by
    intro c hc he
    cases t with
    | nil => simp at hl
    | cons a t =>
      simp at he
      subst he
      have := mem_hex h.2 a (by simp)
      rw [hc] at this; cases this
  unfold parsePayload
  rw [if_neg (hd 1 rfl), if_neg (hd 2 rfl), if_neg (hd 3 rfl),
    w b!"ACK" c!"K" (by decide) (by decide) (by decide), w b!"NAK" c!"K" (by decide) (by decide) (by decide),
    w b!"ERR" c!"R" (by decide) (by decide) (by decide), if_neg (hd 0x23 rfl),
    w b!"ok" c!"o" (by decide) (by decide) (by decide), w b!"ng" c!"n" (by decide) (by decide) (by decide),
    w b!"unpack" c!"u" (by decide) (by decide) (by decide)]
  simp

theorem ref_last {t id : Bytes} (h : OidText t id) (x after : Bytes) (h9 : 9 ≤ (t ++ x ++ after).length) :
    lastCases (t ++ x) after recvData = refBody (t ++ x) recvData := by
  rw [lastCases_independent _ _ h9, if_neg (not_word h x _ c!"s" (by decide) (by decide) (by decide)),
    if_neg (not_word h x _ c!"u" (by decide) (by decide) (by decide))]

theorem payload_complete (payload after : Bytes) (p : Pkt) (h9 : 9 ≤ (payload ++ after).length) (h : Means payload p) :
    parsePayload payload after recvData = .ok (p, recvData) := by
  cases h with
  | data bs => rfl
  | progress bs => rfl
  | sideError bs => rfl
  | nak rest => simp [parsePayload, Loose.prefixEq]
  | err text => simp [parsePayload, Loose.prefixEq, errPkt, keep]
  | comment text => simp [parsePayload, Loose.prefixEq]
  | ok name hn =>
    simp [parsePayload, Loose.prefixEq, okPkt, keep, chomp_id name hn]
  | okNl name =>
    have := chomp_snoc name
    simp [parsePayload, Loose.prefixEq, okPkt, keep, this]
  | unpackOk rest => simp [parsePayload, Loose.prefixEq, unpackPkt, keep]
  | unpackFailed rest hr =>
    have : Loose.prefixEq (b!"unpack" ++ rest) b!"unpack ok" = false := by
      apply prefixEq_false
      intro hp
      apply hr
      simpa using hp
    unfold parsePayload unpackPkt
    rw [this]
    simp [Loose.prefixEq, keep]
  | ng ref msg rest h1 h2 =>
    have := ng_complete ref msg rest h1 h2
    unfold parsePayload
    rw [this]
    simp [Loose.prefixEq, keep]
  | ack rest ho hr =>
    have := ack_complete ho rest
    unfold parsePayload
    rw [this]
    simp [Loose.prefixEq, keep, ackStatus, hr]
  | ackContinue rest ho =>
    have := ack_complete ho (b!" continue" ++ rest)
    rw [← List.append_assoc] at this
    unfold parsePayload
    rw [this]
    simp [Loose.prefixEq, keep, ackStatus]
  | ackCommon rest ho =>
    have := ack_complete ho (b!" common" ++ rest)
    rw [← List.append_assoc] at this
    unfold parsePayload
    rw [this]
    simp [Loose.prefixEq, keep, ackStatus]
  | ackReady rest ho =>
    have := ack_complete ho (b!" ready" ++ rest)
    rw [← List.append_assoc] at this
    unfold parsePayload
    rw [this]
    simp [Loose.prefixEq, keep, ackStatus]
  | shallow ho =>
    unfold parsePayload
    rw [lastCases_independent _ _ h9, shallow_complete ho]
    simp [Loose.prefixEq, keep]
  | unshallow ho =>
    unfold parsePayload
    rw [lastCases_independent _ _ h9, shallow_complete ho]
    simp [Loose.prefixEq, keep]
  | ref name ho h0 hne hnl =>
    rename_i t id
    have := refBody_complete ho name hne (by rw [chomp_id name hnl]; exact h0)
    rw [chomp_id name hnl] at this
    rw [List.append_assoc, ref_dispatch ho, ref_last ho _ _ (by simpa using h9), ← List.append_assoc, this]
  | refNl name ho h0 =>
    have := refBody_complete ho (name ++ b!"\n") (by simp) (by rw [chomp_snoc]; exact h0)
    rw [chomp_snoc, ← List.append_assoc] at this
    rw [List.append_assoc, List.append_assoc, ref_dispatch ho, ref_last ho _ _ (by simpa using h9),
      ← List.append_assoc, ← List.append_assoc, this]

theorem keep_ok {d d' : Data} {r : Res Pkt} {p : Pkt} (h : keep d r = .ok (p, d')) : r = .ok p ∧ d' = d := by
  unfold keep at h
  split at h
  · cases h
  · cases h
  · cases h; exact ⟨rfl, rfl⟩

theorem payload_sound (payload after : Bytes) (p : Pkt) (d : Data) (h9 : 9 ≤ (payload ++ after).length)
    (h : parsePayload payload after recvData = .ok (p, d)) : (Means payload p ∨ Garbage payload p) ∧ d = recvData := by
  have hh : ∀ c, payload.head? = some c → payload = c :: payload.drop 1 := by
    intro c hc; cases payload with
    | nil => simp at hc
    | cons a l => simp at hc; rw [hc]; rfl
  unfold parsePayload at h
  split at h
  · rename_i hc; cases h; rw [hh _ hc]; exact ⟨.inl (.data _), rfl⟩
  split at h
  · rename_i hc; cases h; rw [hh _ hc]; exact ⟨.inl (.progress _), rfl⟩
  split at h
  · rename_i hc; cases h; rw [hh _ hc]; exact ⟨.inl (.sideError _), rfl⟩
  split at h
  · have := keep_ok h; exact ⟨.inl (ackPkt_sound _ _ this.1), this.2⟩
  split at h
  · rename_i hc; cases h
    rw [prefix_drop ((prefixEq_iff _ _).mp hc)]; exact ⟨.inl (.nak _), rfl⟩
  split at h
  · have := keep_ok h; exact ⟨.inl (errPkt_sound _ _ this.1), this.2⟩
  split at h
  · rename_i hc; cases h; rw [hh _ hc]; exact ⟨.inl (.comment _), rfl⟩
  split at h
  · have := keep_ok h; exact ⟨.inl (okPkt_sound _ _ this.1), this.2⟩
  split at h
  · have := keep_ok h; exact ⟨.inl (ngPkt_sound _ _ this.1), this.2⟩
  split at h
  · rename_i hc; have := keep_ok h; exact ⟨.inl (unpackPkt_sound _ _ hc this.1), this.2⟩
  rw [lastCases_independent _ _ h9] at h
  split at h
  · obtain ⟨h1, h2⟩ := keep_ok h
    refine ⟨?_, h2⟩
    obtain ⟨t, hl, rfl, ⟨id, ho, rfl⟩ | ⟨hn, id, rfl⟩⟩ := shallowPkt_sound _ _ _ _ h1
    · exact .inl (.shallow ho)
    · exact .inr ⟨t, id, hl, hn, .inl ⟨rfl, rfl⟩⟩
  split at h
  · obtain ⟨h1, h2⟩ := keep_ok h
    refine ⟨?_, h2⟩
    obtain ⟨t, hl, rfl, ⟨id, ho, rfl⟩ | ⟨hn, id, rfl⟩⟩ := shallowPkt_sound _ _ _ _ h1
    · exact .inl (.unshallow ho)
    · exact .inr ⟨t, id, hl, hn, .inr ⟨rfl, rfl⟩⟩
  · have := refBody_sound _ _ _ h; exact ⟨.inl this.1, this.2⟩

/-- the only other outcome is the error -1 -/
theorem keep_cases (d : Data) (r : Res Pkt) (h : r = .err (-1) ∨ ∃ p, r = .ok p) :
    keep d r = .err (-1) ∨ ∃ p, keep d r = .ok (p, d) := by
  rcases h with rfl | ⟨p, rfl⟩
  · exact .inl rfl
  · exact .inr ⟨p, rfl⟩

theorem ackPkt_cases (l : Bytes) : ackPkt l recvData = .err (-1) ∨ ∃ p, ackPkt l recvData = .ok p := by
  unfold ackPkt
  rw [if_neg (by decide)]
  split
  · exact .inl rfl
  dsimp only
  split
  · exact .inl rfl
  rename_i h40
  rcases readOid_cases (l.drop 4) (by simp [hexsize, recvData] at h40; simp; omega) with ⟨id, e1, e2⟩ | ⟨e1, e2⟩
  · rw [e1]; dsimp only; split
    · exact .inr ⟨_, rfl⟩
    · exact .inl rfl
  · rw [e1]; exact .inl rfl

theorem refBody_cases (l : Bytes) : refBody l recvData = .err (-1) ∨ ∃ p, refBody l recvData = .ok p := by
  unfold refBody
  rw [if_neg (by decide)]
  split
  · exact .inl rfl
  rename_i h40
  rcases readOid_cases l (by simp [hexsize, recvData] at h40; omega) with ⟨id, e1, e2⟩ | ⟨e1, e2⟩
  · rw [e1]; dsimp only
    split
    · exact .inl rfl
    split
    · exact .inl rfl
    split
    · split
      · exact .inr ⟨_, rfl⟩
      · exact .inl rfl
    · exact .inr ⟨_, rfl⟩
  · rw [e1]; exact .inl rfl

/-- a result that is a value or the error -1 -/
def Plain {α : Type} (r : Res α) : Prop := r = .err (-1) ∨ ∃ p, r = .ok p

theorem Plain.ite {α : Type} {c : Prop} [Decidable c] {a b : Res α} (ha : Plain a) (hb : Plain b) : Plain (if c then a else b) := by
  split
  · exact ha
  · exact hb
theorem Plain.ok {α : Type} (a : α) : Plain (.ok a) := .inr ⟨a, rfl⟩
theorem Plain.err {α : Type} : Plain (.err (-1) : Res α) := .inl rfl
theorem Plain.keep {d : Data} {r : Res Pkt} (h : Plain r) : Plain (keep d r) := by
  rcases keep_cases d r h with h | ⟨p, h⟩
  · exact .inl h
  · exact .inr ⟨_, h⟩

theorem payload_cases (payload after : Bytes) (h9 : 9 ≤ (payload ++ after).length) :
    parsePayload payload after recvData = .err (-1) ∨ ∃ p, parsePayload payload after recvData = .ok (p, recvData) := by
  have hs : ∀ w mk, Plain (shallowPkt w mk payload recvData) := by
    intro w mk
    unfold shallowPkt
    exact .ite .err (.ite .err (.ite .err (.ok _)))
  have hd : ∀ p d, parsePayload payload after recvData = .ok (p, d) → d = recvData := fun p d h => (payload_sound _ _ _ _ h9 h).2
  suffices h : Plain (parsePayload payload after recvData) by
    rcases h with h | ⟨⟨p, d⟩, h⟩
    · exact .inl h
    · have := hd p d h; subst this; exact .inr ⟨p, h⟩
  unfold parsePayload
  refine .ite (.ok _) <| .ite (.ok _) <| .ite (.ok _) <| .ite (.keep (ackPkt_cases payload)) <| .ite (.ok _) <|
    .ite (.keep ?_) <| .ite (.ok _) <| .ite (.keep ?_) <| .ite (.keep ?_) <| .ite (.keep (.ok _)) ?_
  · exact .ite .err (.ok _)
  · exact .ite .err (.ok _)
  · exact .ite .err (.ite .err (.ite .err (.ite .err (.ok _))))
  rw [lastCases_independent _ _ h9]
  exact .ite (.keep (hs _ _)) (.ite (.keep (hs _ _)) (refBody_cases payload))

end Verif.Pkt
