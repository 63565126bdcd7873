import Verif.Delta.LemmasCreate
namespace Verif.Delta
open Spec

/-- the pending literal run at the end of the output: an unfilled count slot and the bytes inserted so far -/
def pending (trg : Bytes) (data n : Nat) : Bytes :=
  if n = 0 then [] else 0 :: (trg.drop (data - n)).take n

structure Sem (ref trg hdr : Bytes) (s : St) : Prop where
  hd : s.data ≤ trg.length
  h16 : s.data < trg.length → 16 ≤ s.data
  hi : s.inscnt ≤ s.data
  hi2 : s.inscnt < 127
  ex : ∃ is ops, s.buf = hdr ++ ops ++ pending trg s.data s.inscnt ∧ EncodesAll is ops ∧
    evalAll ref is = some (trg.take (s.data - s.inscnt))
  m : Match ref trg s.data s.moff s.msize
  v : s.val.toNat < 2 ^ 31

theorem Match.zero {ref trg : Bytes} {data moff msize : Nat} (h : Match ref trg data moff msize) (data' : Nat)
    (hd : data' ≤ trg.length) : Match ref trg data' moff 0 :=
  ⟨by have := h.inRef; omega, by omega, by simp⟩

theorem set_slot (P L : Bytes) (x y : UInt8) (n : Nat) (h : L.length = n) :
    (P ++ x :: L).set ((P ++ x :: L).length - n - 1) y = P ++ y :: L := by
  have : (P ++ x :: L).length - n - 1 = P.length := by simp; omega
  rw [this, List.set_append_right _ _ (Nat.le_refl _)]
  simp

theorem take_run (trg : Bytes) (d n : Nat) (hn : n ≤ d) : trg.take (d - n) ++ (trg.drop (d - n)).take n = trg.take d := by
  conv => rhs; rw [show d = (d - n) + n by omega]
  rw [List.take_add]

theorem insert_flush (ref trg : Bytes) (is : List Instr) (ops : Bytes) (d n : Nat) (hn : 0 < n) (hn2 : n ≤ 127) (hnd : n ≤ d)
    (hd : d ≤ trg.length) (he : EncodesAll is ops) (hv : evalAll ref is = some (trg.take (d - n))) :
    EncodesAll (is ++ [.insert ((trg.drop (d - n)).take n)]) (ops ++ UInt8.ofNat n :: (trg.drop (d - n)).take n) ∧
    evalAll ref (is ++ [.insert ((trg.drop (d - n)).take n)]) = some (trg.take d) := by
  have hl : ((trg.drop (d - n)).take n).length = n := by simp; omega
  constructor
  · apply EncodesAll.append he
    apply EncodesAll.single
    refine ⟨by omega, by omega, ?_⟩
    rw [hl]
  · have := evalAll_append ref is [.insert ((trg.drop (d - n)).take n)] _ _ hv (by simp [evalAll, Instr.eval]; rfl)
    rw [this, take_run _ _ _ hnd]

theorem take_drop_succ (trg : Bytes) (d n : Nat) (h : n ≤ d) (c : UInt8) (hc : trg[d]? = some c) :
    (trg.drop (d - n)).take (n + 1) = (trg.drop (d - n)).take n ++ [c] := by
  rw [List.take_add_one]
  have : (trg.drop (d - n))[n]? = some c := by rw [List.getElem?_drop, show d - n + n = d by omega, hc]
  rw [this]; rfl

/-- what a single iteration guarantees about the output size -/
structure StepLen (s s' : St) : Prop where
  fwd : s.data < s'.data
  len : s'.buf.length ≤ s.buf.length + 2 * (s'.data - s.data)
  len7 : s'.buf.length ≤ s.buf.length + 7
  bs : s'.bufsize = s.bufsize

theorem insertStep_ok (ref trg hdr : Bytes) (s : St) (hs : Sem ref trg hdr s) (hlt : s.data < trg.length) :
    (s.buf.length + 8 ≤ s.bufsize → insertStep trg s ≠ .ub) ∧ (∀ e, insertStep trg s ≠ .err e) ∧
    ∀ s', insertStep trg s = .ok s' → Sem ref trg hdr s' ∧ StepLen s s' := by
  unfold insertStep
  rw [List.getElem?_eq_getElem hlt]
  simp only
  generalize hcc : trg[s.data] = c
  have hc : trg[s.data]? = some c := by rw [List.getElem?_eq_getElem hlt, hcc]
  obtain ⟨is, ops, hb, he, hv⟩ := hs.ex
  have hbl : s.inscnt = 0 ∨ 0 < s.inscnt := by omega
  have hlen : (if s.inscnt = 0 then [0, c] else [c]).length ≤ 2 := by split <;> simp
  have hlen1 : 1 ≤ (if s.inscnt = 0 then [0, c] else [c]).length := by split <;> simp
  have hmem : (s.buf.length + 8 ≤ s.bufsize → put s.bufsize s.buf (if s.inscnt = 0 then [0, c] else [c]) ≠ .ub) := by
    intro h; unfold put; rw [if_pos (by omega)]; simp
  by_cases hfit : s.buf.length + (if s.inscnt = 0 then [0, c] else [c]).length ≤ s.bufsize
  · have hnew : s.buf ++ (if s.inscnt = 0 then [0, c] else [c]) =
        hdr ++ ops ++ (0 :: (trg.drop (s.data - s.inscnt)).take (s.inscnt + 1)) := by
      rw [hb, take_drop_succ trg s.data s.inscnt hs.hi c hc]
      unfold pending
      rcases hbl with h | h
      · simp [h]
      · have h0 : s.inscnt ≠ 0 := by omega
        simp [h0]
    have hl : ((trg.drop (s.data - s.inscnt)).take (s.inscnt + 1)).length = s.inscnt + 1 := by
      have := hs.hi; simp; omega
    have e1 : s.data - s.inscnt = (s.data + 1) - (s.inscnt + 1) := by omega
    have hlen2 := congrArg List.length hnew
    rw [List.length_append] at hlen2
    unfold put
    rw [if_pos hfit]
    simp only [Res.bind_ok]
    rw [hnew]
    by_cases h127 : s.inscnt + 1 = 0x7f
    · rw [if_pos h127]
      refine ⟨by simp, by simp, ?_⟩
      intro s' hs'
      cases hs'
      rw [set_slot _ _ _ _ _ hl]
      have hfl := insert_flush ref trg is ops (s.data + 1) (s.inscnt + 1) (by omega) (by omega) (by have := hs.hi; omega) (by omega) he
        (by rw [← e1]; exact hv)
      rw [← e1] at hfl
      refine ⟨⟨by simp only; omega, by simp only; have := hs.h16 hlt; omega, by simp, by simp, ⟨_, _, ?_, hfl.1, by simpa using hfl.2⟩, ?_, hs.v⟩,
        ⟨by simp, ?_, ?_, rfl⟩⟩
      · simp [pending]
      · exact hs.m.zero (s.data + 1) (by omega)
      · simp only [List.length_append, List.length_cons] at hlen hlen1 hlen2 ⊢; omega
      · simp only [List.length_append, List.length_cons] at hlen hlen1 hlen2 ⊢; omega
    · rw [if_neg h127]
      refine ⟨by simp, by simp, ?_⟩
      intro s' hs'
      cases hs'
      refine ⟨⟨by simp only; omega, by simp only; have := hs.h16 hlt; omega, by simp; exact hs.hi, by simp; have := hs.hi2; omega,
        ⟨is, ops, ?_, he, by rw [← e1]; exact hv⟩, ?_, hs.v⟩, ⟨by simp, ?_, ?_, rfl⟩⟩
      · simp only [pending]; rw [if_neg (by omega), ← e1]
      · exact hs.m.zero (s.data + 1) (by omega)
      · simp only [List.length_append, List.length_cons] at hlen hlen1 hlen2 ⊢; omega
      · simp only [List.length_append, List.length_cons] at hlen hlen1 hlen2 ⊢; omega
  · unfold put at hmem ⊢
    rw [if_neg hfit] at hmem ⊢
    refine ⟨fun h => absurd rfl (hmem h), by simp, by simp⟩

theorem run_dropLast (trg : Bytes) (d n : Nat) (h : n + 1 ≤ d) (hd : d ≤ trg.length) :
    ((trg.drop (d - (n + 1))).take (n + 1)).dropLast = (trg.drop (d - 1 - n)).take n := by
  have : d - (n + 1) = d - 1 - n := by omega
  rw [this, List.dropLast_eq_take, List.take_take]
  congr 1
  simp; omega

theorem Match.back {ref trg : Bytes} {data moff msize : Nat} (h : Match ref trg data moff msize) (hm : moff ≠ 0) (hd : data ≠ 0)
    (c : UInt8) (h1 : ref[moff - 1]? = some c) (h2 : trg[data - 1]? = some c) :
    Match ref trg (data - 1) (moff - 1) (msize + 1) := by
  refine ⟨by have := h.inRef; omega, by have := h.inTrg; omega, ?_⟩
  obtain ⟨l1, g1⟩ := List.getElem?_eq_some_iff.mp h1
  obtain ⟨l2, g2⟩ := List.getElem?_eq_some_iff.mp h2
  rw [List.drop_eq_getElem_cons l1, List.drop_eq_getElem_cons l2]
  have e1 : moff - 1 + 1 = moff := by omega
  have e2 : data - 1 + 1 = data := by omega
  rw [e1, e2, List.take_succ_cons, List.take_succ_cons, h.same, g1, g2]

/-- what the backward extension leaves -/
structure BackRes (ref trg P : Bytes) (n msize data : Nat) (b : Back) : Prop where
  m : Match ref trg b.data b.moff b.msize
  hk : b.data ≤ data
  hm : b.msize + b.data = msize + data
  bound : data - n ≤ b.data
  some_ : ∀ k, b.cnt = some k → 0 < k ∧ k ≤ n ∧ b.data - k = data - n ∧ k ≤ b.data ∧ b.buf = P ++ 0 :: (trg.drop (b.data - k)).take k
  none_ : b.cnt = none → b.data = data - n ∧ b.buf = P

theorem backLoop_ok (ref trg P : Bytes) (n : Nat) : ∀ (moff msize data : Nat), 0 < n → n ≤ data → data ≤ trg.length →
    Match ref trg data moff msize →
    ∃ b, backLoop ref trg n (P ++ 0 :: (trg.drop (data - n)).take n) moff msize data = .ok b ∧ BackRes ref trg P n msize data b := by
  induction n with
  | zero => intro _ _ _ h; omega
  | succ n ih =>
    intro moff msize data _ hnd hdl hm
    have hstop : ∃ b, (Res.ok ⟨P ++ 0 :: (trg.drop (data - (n + 1))).take (n + 1), moff, msize, data, some (n + 1)⟩ : Res Back) = .ok b ∧
        BackRes ref trg P (n + 1) msize data b := by
      refine ⟨_, rfl, ⟨hm, by simp, by simp, by simp, ?_, by simp⟩⟩
      intro k hk
      cases hk
      exact ⟨by omega, by omega, rfl, hnd, rfl⟩
    rw [backLoop]
    by_cases h0 : moff = 0
    · rw [if_pos h0]; exact hstop
    · rw [if_neg h0, if_neg (by omega)]
      have l1 : moff - 1 < ref.length := by have := hm.inRef; omega
      have l2 : data - 1 < trg.length := by omega
      rw [List.getElem?_eq_getElem l1, List.getElem?_eq_getElem l2]
      simp only
      by_cases hc : ref[moff - 1] = trg[data - 1]
      · rw [if_pos hc]
        have hm' := hm.back h0 (by omega) (trg[data - 1]) (by rw [List.getElem?_eq_getElem l1, hc]) (List.getElem?_eq_getElem l2)
        by_cases hn : n = 0
        · rw [if_pos hn]
          subst hn
          refine ⟨_, rfl, ⟨hm', by simp, by simp; omega, by simp, by simp, ?_⟩⟩
          intro _
          refine ⟨rfl, ?_⟩
          simp only
          have : ((trg.drop (data - 1)).take 1) = [trg[data - 1]] := by
            rw [List.drop_eq_getElem_cons l2, List.take_succ_cons, List.take_zero]
          rw [Nat.zero_add, this, List.dropLast_append_of_ne_nil (by simp)]; simp
        · rw [if_neg hn]
          have hb : (P ++ 0 :: (trg.drop (data - (n + 1))).take (n + 1)).dropLast = P ++ 0 :: (trg.drop (data - 1 - n)).take n := by
            rw [List.dropLast_append_of_ne_nil (by simp), List.dropLast_cons_of_ne_nil, run_dropLast _ _ _ hnd hdl]
            intro h
            have := congrArg List.length h
            simp at this; omega
          rw [hb]
          obtain ⟨b, h1, h2⟩ := ih (moff - 1) (msize + 1) (data - 1) (by omega) (by omega) (by omega) hm'
          refine ⟨b, h1, ⟨h2.m, by have := h2.hk; omega, by have := h2.hm; omega, by have := h2.bound; omega, ?_, ?_⟩⟩
          · intro k hk
            obtain ⟨a1, a2, a3, a4, a5⟩ := h2.some_ k hk
            exact ⟨a1, by omega, by omega, a4, a5⟩
          · intro hk
            obtain ⟨a1, a2⟩ := h2.none_ hk
            exact ⟨by omega, a2⟩
      · rw [if_neg hc]; exact hstop

/-- after flushing, the output is a complete instruction stream for the target up to the start of the match -/
theorem flushInsert_ok (ref trg hdr : Bytes) (s : St) (hs : Sem ref trg hdr s) :
    ∃ b is ops, flushInsert ref trg s = .ok b ∧ b.buf = hdr ++ ops ∧ EncodesAll is ops ∧
      evalAll ref is = some (trg.take b.data) ∧ Match ref trg b.data b.moff b.msize ∧ b.data ≤ s.data ∧
      b.msize + b.data = s.msize + s.data ∧ s.data ≤ b.data + 126 ∧ b.buf.length ≤ s.buf.length := by
  obtain ⟨is, ops, hb, he, hv⟩ := hs.ex
  unfold flushInsert
  by_cases h0 : s.inscnt ≠ 0
  · rw [if_pos h0]
    have hp : s.buf = (hdr ++ ops) ++ 0 :: (trg.drop (s.data - s.inscnt)).take s.inscnt := by
      rw [hb]; simp [pending, h0]
    have hl : ((trg.drop (s.data - s.inscnt)).take s.inscnt).length = s.inscnt := by
      have := hs.hi; have := hs.hd; simp; omega
    have hbl : s.buf.length = (hdr ++ ops).length + 1 + s.inscnt := by rw [hp]; simp at hl ⊢; omega
    obtain ⟨b, h1, h2⟩ := backLoop_ok ref trg (hdr ++ ops) s.inscnt s.moff s.msize s.data (by omega) hs.hi hs.hd hs.m
    rw [hp, h1]
    simp only
    have hi2 := hs.hi2
    have bd := h2.bound
    have hbd : b.data ≤ trg.length := by have := h2.hk; have := hs.hd; omega
    cases hc : b.cnt with
    | none =>
      obtain ⟨a1, a2⟩ := h2.none_ hc
      refine ⟨b, is, ops, rfl, a2, he, by rw [a1]; exact hv, h2.m, h2.hk, h2.hm, by omega, by rw [a2, ← hp]; omega⟩
    | some k =>
      obtain ⟨a1, a2, a3, a4, a5⟩ := h2.some_ k hc
      have hl2 : ((trg.drop (b.data - k)).take k).length = k := by simp; omega
      have hfl := insert_flush ref trg is ops b.data k a1 (by omega) a4 hbd he (by rw [a3]; exact hv)
      refine ⟨_, _, _, rfl, ?_, hfl.1, hfl.2, h2.m, h2.hk, h2.hm, by simp; omega, ?_⟩
      · simp only
        rw [a5, set_slot _ _ _ _ _ hl2, List.append_assoc]
      · rw [← hp, hbl]
        simp only [List.length_set, a5, List.length_append, List.length_cons] at hl2 ⊢
        omega
  · rw [if_neg h0]
    have h0' : s.inscnt = 0 := by omega
    refine ⟨_, is, ops, rfl, ?_, he, ?_, hs.m, by simp, by simp, by simp, by simp⟩
    · simp [hb, pending, h0']
    · simpa [h0'] using hv

theorem Match.advance {ref trg : Bytes} {data moff m k : Nat} (h : Match ref trg data moff m) (hk : k ≤ m) :
    Match ref trg (data + k) (moff + k) (m - k) := by
  refine ⟨by have := h.inRef; omega, by have := h.inTrg; omega, ?_⟩
  have e := congrArg (List.drop k) h.same
  rw [List.drop_take, List.drop_take, List.drop_drop, List.drop_drop] at e
  exact e

theorem Match.shrink {ref trg : Bytes} {data moff m k : Nat} (h : Match ref trg data moff m) (hk : k ≤ m) :
    (ref.drop moff).take k = (trg.drop data).take k := by
  have e := congrArg (List.take k) h.same
  rwa [List.take_take, List.take_take, Nat.min_eq_left hk] at e

theorem copyStep_ok (ref trg hdr : Bytes) (s : St) (hs : Sem ref trg hdr s) (hlt : s.data < trg.length) (hm4 : 4 ≤ s.msize)
    (href : ref.length < 2 ^ 32) :
    (s.buf.length + 8 ≤ s.bufsize → copyStep ref trg s ≠ .ub) ∧ (∀ e, copyStep ref trg s ≠ .err e) ∧
    ∀ s', copyStep ref trg s = .ok s' → Sem ref trg hdr s' ∧ StepLen s s' := by
  obtain ⟨b, is, ops, hf, hbuf, he, hv, hm, hd1, hd2, hd3, hbl⟩ := flushInsert_ok ref trg hdr s hs
  unfold copyStep
  rw [hf]
  simp only [Res.bind_ok]
  generalize hleft : (if b.msize < 0x10000 then 0 else b.msize - 0x10000) = left
  have hlb : left ≤ b.msize := by rw [← hleft]; split <;> omega
  have hmpos : 4 + (s.data - b.data) ≤ b.msize - left ∧ b.msize - left ≤ 0x10000 := by
    rw [← hleft]; split <;> omega
  generalize hms : b.msize - left = m at *
  have hle7 := copyOp_len b.moff m
  have henc := copyOp_enc b.moff m (by have := hm.inRef; omega) (by omega) hmpos.2
  have hadv : Match ref trg (b.data + m) (b.moff + m) left := by
    have := hm.advance (k := m) (by omega)
    rwa [show b.msize - m = left by omega] at this
  have hs16 := hs.h16 hlt
  by_cases hfit : b.buf.length + (copyOp b.moff m).length ≤ s.bufsize
  · unfold put
    rw [if_pos hfit]
    simp only [Res.bind_ok]
    have hstep : ∀ (v : UInt32), v.toNat < 2 ^ 31 → ∀ s', s' = { s with buf := b.buf ++ copyOp b.moff m, inscnt := 0, data := b.data + m, moff := b.moff + m, msize := left, val := v } →
        Sem ref trg hdr s' ∧ StepLen s s' := by
      intro v hvl s' hs'
      subst hs'
      refine ⟨⟨?_, ?_, by simp, by simp, ⟨is ++ [.copy b.moff m], ops ++ copyOp b.moff m, ?_, EncodesAll.append he (EncodesAll.single henc), ?_⟩, hadv, hvl⟩,
        ⟨?_, ?_, ?_, rfl⟩⟩
      · have := hadv.inTrg; simp; omega
      · intro _; simp; omega
      · simp [pending, hbuf]
      · have h1 : evalAll ref [.copy b.moff m] = some ((trg.drop b.data).take m) := by
          simp only [evalAll, Instr.eval]
          rw [if_pos (by have := hm.inRef; omega)]
          simp only [List.append_nil]
          rw [hm.shrink (by omega)]
        rw [evalAll_append ref is _ _ _ hv h1]
        simp only [Nat.sub_zero]
        rw [List.take_add]
      · simp; omega
      · simp only [List.length_append]; omega
      · simp only [List.length_append]; omega
    by_cases hl : left < 4096
    · rw [if_pos hl]
      have : ¬ b.data + m < RABIN_WINDOW := by unfold RABIN_WINDOW; omega
      rw [if_neg this]
      rw [slice_ok _ _ _ (by unfold RABIN_WINDOW at *; have := hadv.inTrg; omega)]
      obtain ⟨v, hv1, hv2⟩ := rollAll_ok 0 ((trg.drop (b.data + m - RABIN_WINDOW)).take RABIN_WINDOW) (by decide)
      simp only [Res.bind_ok, hv1]
      refine ⟨by simp, by simp, ?_⟩
      intro s' hs'
      cases hs'
      exact hstep v hv2 _ rfl
    · rw [if_neg hl]
      refine ⟨by simp, by simp, ?_⟩
      intro s' hs'
      cases hs'
      exact hstep s.val hs.v _ rfl
  · unfold put
    rw [if_neg hfit]
    refine ⟨fun h => ?_, by simp, by simp⟩
    omega

theorem searchStep_ok (ix : Index) (trg hdr : Bytes) (s : St) (hs : Sem ix.src trg hdr s) (hlt : s.data < trg.length)
    (hix : ∀ i, ∀ e ∈ ix.hash i, e.ptr ≤ ix.src.length) :
    ∃ s', searchStep ix trg s = .ok s' ∧ Sem ix.src trg hdr s' ∧ s'.data = s.data ∧ s'.buf = s.buf ∧ s'.bufsize = s.bufsize := by
  unfold searchStep
  by_cases h : s.msize < 4096
  · rw [if_pos h]
    have h16 := hs.h16 hlt
    rw [if_neg (by unfold RABIN_WINDOW; omega)]
    have l1 : s.data - RABIN_WINDOW < trg.length := by omega
    rw [List.getElem?_eq_getElem l1, List.getElem?_eq_getElem hlt]
    simp only
    have hu : (trg[s.data - RABIN_WINDOW]).toNat < U.length := by rw [U_len]; exact UInt8.toNat_lt _
    rw [List.getElem?_eq_getElem hu]
    simp only
    have hus := U_small ⟨_, by rw [U_len] at hu; exact hu⟩
    simp only [List.getD_eq_getElem?_getD, List.getElem?_eq_getElem hu, Option.getD_some] at hus
    obtain ⟨v, hv1, hv2⟩ := roll_ok (s.val ^^^ U[(trg[s.data - RABIN_WINDOW]).toNat]) trg[s.data] (xor_lt _ _ hs.v hus)
    rw [hv1]
    simp only [Res.bind_ok]
    refine ⟨_, rfl, ⟨hs.hd, hs.h16, hs.hi, hs.hi2, hs.ex, ?_, hv2⟩, rfl, rfl, rfl⟩
    exact scan_ok _ _ _ _ _ _ _ (hix _) hs.hd hs.m
  · rw [if_neg h]
    exact ⟨s, rfl, hs, rfl, rfl, rfl⟩

/-- memory invariant -/
structure Mem (s : St) (n : Nat) : Prop where
  room : s.buf.length + 8 ≤ s.bufsize
  ge : 36 ≤ s.bufsize
  lin : s.buf.length ≤ 11 + 2 * s.data

theorem growStep_sem {ref trg hdr : Bytes} {mx : Nat} {s s' : St} (h : growStep mx s = some s') (hs : Sem ref trg hdr s) :
    Sem ref trg hdr s' ∧ s'.data = s.data ∧ s'.buf = s.buf := by
  unfold growStep at h
  simp only at h
  split at h
  · generalize (if mx ≠ 0 ∧ mx ≤ s.bufsize * 3 % 2 ^ 32 / 2 then mx + MAX_OP_SIZE + 1 else s.bufsize * 3 % 2 ^ 32 / 2) = n at h
    split at h
    · cases h
    · cases h; exact ⟨⟨hs.hd, hs.h16, hs.hi, hs.hi2, hs.ex, hs.m, hs.v⟩, rfl, rfl⟩
  · cases h; exact ⟨hs, rfl, rfl⟩

theorem growStep_none {mx : Nat} {s : St} (h : growStep mx s = none) : mx ≠ 0 ∧ mx < s.buf.length := by
  unfold growStep at h
  simp only at h
  split at h
  · generalize (if mx ≠ 0 ∧ mx ≤ s.bufsize * 3 % 2 ^ 32 / 2 then mx + MAX_OP_SIZE + 1 else s.bufsize * 3 % 2 ^ 32 / 2) = n at h
    split at h
    · rename_i hh; exact hh
    · cases h
  · cases h

theorem growStep_mem {mx N : Nat} {s s' : St} (h : growStep mx s = some s') (hN : 6 * N + 135 < 2 ^ 32) (hd : s.data ≤ N)
    (hb : s.buf.length ≤ s.bufsize) (hge : 36 ≤ s.bufsize) (hlin : s.buf.length ≤ 11 + 2 * s.data) : Mem s' N := by
  unfold growStep at h
  have hM : MAX_OP_SIZE = 34 := rfl
  rw [hM] at h
  simp only at h
  by_cases h1 : s.bufsize - 34 ≤ s.buf.length
  · rw [if_pos h1] at h
    have hmod : s.bufsize * 3 % 2 ^ 32 = s.bufsize * 3 := Nat.mod_eq_of_lt (by omega)
    rw [hmod] at h
    generalize hn : (if mx ≠ 0 ∧ mx ≤ s.bufsize * 3 / 2 then mx + 34 + 1 else s.bufsize * 3 / 2) = n at h
    by_cases h2 : mx ≠ 0 ∧ mx < s.buf.length
    · rw [if_pos h2] at h; cases h
    · rw [if_neg h2] at h
      cases h
      refine ⟨?_, ?_, hlin⟩
      · simp only; split at hn <;> omega
      · simp only; split at hn <;> omega
  · rw [if_neg h1] at h
    cases h
    exact ⟨by omega, hge, hlin⟩

theorem loopStep_ok (ix : Index) (trg hdr : Bytes) (mx : Nat) (hix : ∀ i, ∀ e ∈ ix.hash i, e.ptr ≤ ix.src.length)
    (href : ix.src.length < 2 ^ 32) (s : St) (hs : Sem ix.src trg hdr s) (hlt : s.data < trg.length) :
    (Mem s trg.length → loopStep ix trg mx s ≠ .ub) ∧ (∀ e, loopStep ix trg mx s ≠ .err e) ∧
    (∀ s', loopStep ix trg mx s = .ok (false, s') → Sem ix.src trg hdr s' ∧ mx ≠ 0 ∧ mx < s'.buf.length) ∧
    (∀ s', loopStep ix trg mx s = .ok (true, s') → Sem ix.src trg hdr s' ∧ s.data < s'.data ∧
      (6 * trg.length + 135 < 2 ^ 32 → Mem s trg.length → Mem s' trg.length)) := by
  unfold loopStep
  obtain ⟨s1, e1, hs1, hd1, hb1, hz1⟩ := searchStep_ok ix trg hdr s hs hlt hix
  rw [e1]
  simp only [Res.bind_ok]
  have hstep : (s1.buf.length + 8 ≤ s1.bufsize → (if s1.msize < 4 then insertStep trg s1 else copyStep ix.src trg s1) ≠ .ub) ∧
      (∀ e, (if s1.msize < 4 then insertStep trg s1 else copyStep ix.src trg s1) ≠ .err e) ∧
      ∀ s', (if s1.msize < 4 then insertStep trg s1 else copyStep ix.src trg s1) = .ok s' → Sem ix.src trg hdr s' ∧ StepLen s1 s' := by
    split
    · exact insertStep_ok _ _ _ _ hs1 (by omega)
    · exact copyStep_ok _ _ _ _ hs1 (by omega) (by omega) href
  generalize (if s1.msize < 4 then insertStep trg s1 else copyStep ix.src trg s1) = r at hstep
  obtain ⟨t1, t2, t3⟩ := hstep
  cases r with
  | ub =>
    simp only [Res.bind_ub]
    refine ⟨fun hmem => ?_, by simp, by simp, by simp⟩
    have := hmem.room
    exact absurd rfl (t1 (by rw [hb1, hz1]; omega))
  | err e => exact absurd rfl (t2 e)
  | ok s2 =>
    simp only [Res.bind_ok]
    obtain ⟨hs2, hl2⟩ := t3 s2 rfl
    cases hg : growStep mx s2 with
    | none =>
      simp only
      refine ⟨by simp, by simp, ?_, by simp⟩
      intro s' h; cases h
      exact ⟨hs2, growStep_none hg⟩
    | some s3 =>
      simp only
      obtain ⟨hs3, hd3, hb3⟩ := growStep_sem hg hs2
      have a6 := hl2.fwd
      refine ⟨by simp, by simp, by simp, ?_⟩
      intro s' h; cases h
      refine ⟨hs3, by omega, fun hN hmem => ?_⟩
      have a1 := hl2.len; have a2 := hl2.len7; have a3 := hl2.bs; have a4 := hmem.room; have a5 := hmem.lin
      have a7 := hmem.ge
      rw [hb1] at a1 a2
      rw [hd1] at a1 a6
      exact growStep_mem hg hN hs2.hd (by omega) (by omega) (by omega)

theorem mainLoop_ok (ix : Index) (trg hdr : Bytes) (mx : Nat) (hix : ∀ i, ∀ e ∈ ix.hash i, e.ptr ≤ ix.src.length)
    (href : ix.src.length < 2 ^ 32) (fuel : Nat) : ∀ (s : St), Sem ix.src trg hdr s →
    (6 * trg.length + 135 < 2 ^ 32 → Mem s trg.length → trg.length ≤ s.data + fuel → mainLoop ix trg mx fuel s ≠ .ub) ∧
    (∀ e, mainLoop ix trg mx fuel s ≠ .err e) ∧
    ∀ s', mainLoop ix trg mx fuel s = .ok s' → Sem ix.src trg hdr s' ∧ (s'.data = trg.length ∨ (mx ≠ 0 ∧ mx < s'.buf.length)) := by
  induction fuel with
  | zero =>
    intro s hs
    rw [mainLoop]
    by_cases hlt : s.data < trg.length
    · rw [if_pos hlt]
      exact ⟨fun _ _ h => by omega, by simp, by simp⟩
    · rw [if_neg hlt]
      refine ⟨by simp, by simp, ?_⟩
      intro s' h; cases h
      exact ⟨hs, .inl (by have := hs.hd; omega)⟩
  | succ fuel ih =>
    intro s hs
    rw [mainLoop]
    by_cases hlt : s.data < trg.length
    · rw [if_pos hlt]
      obtain ⟨t1, t2, t3, t4⟩ := loopStep_ok ix trg hdr mx hix href s hs hlt
      cases hr : loopStep ix trg mx s with
      | ub => exact ⟨fun _ hm _ => absurd hr (t1 hm), by simp, by simp⟩
      | err e => exact absurd hr (t2 e)
      | ok x =>
        obtain ⟨b, s'⟩ := x
        cases b with
        | false =>
          obtain ⟨u1, u2⟩ := t3 s' hr
          simp only
          refine ⟨by simp, by simp, ?_⟩
          intro s'' h; cases h
          exact ⟨u1, .inr u2⟩
        | true =>
          obtain ⟨u1, u2, u3⟩ := t4 s' hr
          obtain ⟨w1, w2, w3⟩ := ih s' u1
          exact ⟨fun hN hm hf => w1 hN (u3 hN hm) (by omega), w2, w3⟩
    · rw [if_neg hlt]
      refine ⟨by simp, by simp, ?_⟩
      intro s' h; cases h
      exact ⟨hs, .inl (by have := hs.hd; omega)⟩

theorem initState_ok (ref trg : Bytes) (mx : Nat) (href : ref.length < 2 ^ 32) (htrg : trg.length < 2 ^ 32) (hne : trg ≠ []) :
    ∃ s, initState ref.length trg mx = .ok s ∧ Sem ref trg (hdrBytes ref.length ++ hdrBytes trg.length) s ∧ Mem s trg.length ∧
      s.data ≤ trg.length := by
  unfold initState
  generalize hbs : (if mx ≠ 0 ∧ mx ≤ 8192 then mx + MAX_OP_SIZE + 1 else 8192) = bufsize
  have hb : 36 ≤ bufsize := by
    rw [← hbs]; unfold MAX_OP_SIZE RABIN_WINDOW; split <;> omega
  have l1 := hdrBytes_len ref.length 4 (by omega)
  have l2 := hdrBytes_len trg.length 4 (by omega)
  have l3 : (trg.take RABIN_WINDOW).length ≤ 16 := by simp [RABIN_WINDOW]; omega
  have hpos : 0 < trg.length := List.length_pos_iff.mpr hne
  have hwl : (trg.take RABIN_WINDOW).length = min 16 trg.length := by simp [RABIN_WINDOW]
  obtain ⟨v, hv1, hv2⟩ := rollAll_ok 0 (trg.take RABIN_WINDOW) (by decide)
  simp only [put, List.length_nil, List.length_append, List.nil_append, List.length_cons, Res.bind_ok]
  rw [if_pos (by omega)]
  simp only [Res.bind_ok, List.length_append]
  rw [if_pos (by omega)]
  simp only [Res.bind_ok, hv1]
  refine ⟨_, rfl, ⟨?_, ?_, by simp, ?_, ⟨[], [], ?_, .nil, ?_⟩, ?_, hv2⟩, ⟨?_, hb, ?_⟩, ?_⟩
  · simp only; omega
  · simp only; omega
  · simp only; omega
  · simp only [pending]
    rw [if_neg (by omega)]
    simp only [List.append_nil, Nat.sub_self, List.drop_zero]
    rw [hwl]
    have : trg.take RABIN_WINDOW = trg.take (min 16 trg.length) := by
      unfold RABIN_WINDOW
      rw [← List.take_eq_take_min]
    rw [this]
  · simp [evalAll]
  · refine ⟨by simp, by simp only; omega, by simp⟩
  · simp only [List.length_append, List.length_cons]
    omega
  · simp only [List.length_append, List.length_cons]; omega
  · simp only; omega

end Verif.Delta
