import Verif.Delta.LemmasMain
/-! # C05, C06: binary deltas -/
namespace Verif.Delta
open Spec

/-- creation, fully characterised up to the bytes chosen -/
theorem create_char (src trg : Bytes) (mx : Nat) :
    (∀ d, create src trg mx = .ok (some d) →
      src.length < 2 ^ 32 ∧ trg.length < 2 ^ 32 ∧ (mx ≠ 0 → d.length ≤ mx) ∧
      ∃ is ops, d = hdrBytes src.length ++ hdrBytes trg.length ++ ops ∧ EncodesAll is ops ∧ evalAll src is = some trg) ∧
    (6 * trg.length + 135 < 2 ^ 32 → create src trg mx ≠ .ub) ∧
    (create src trg mx = .ok none → src = [] ∨ trg = []) ∧
    (mx = 0 → src.length < 2 ^ 32 → 6 * trg.length + 135 < 2 ^ 32 → src ≠ [] → trg ≠ [] → ∃ d, create src trg mx = .ok (some d)) := by
  unfold create
  by_cases hsrc : src = []
  · subst hsrc
    simp [indexInit]
  · obtain ⟨ix, h1, h2, h3⟩ := indexInit_ok src hsrc
    rw [h1]
    simp only [Res.bind_ok]
    unfold createFromIndex
    by_cases htrg : trg.length = 0
    · rw [if_pos htrg]
      have := List.length_eq_zero_iff.mp htrg
      simp [this]
    · rw [if_neg htrg, h2]
      have htne : trg ≠ [] := fun h => htrg (by simp [h])
      by_cases hbig : UINT_MAX < src.length ∨ UINT_MAX < trg.length ∨ UINT_MAX - MAX_OP_SIZE - 1 < mx
      · rw [if_pos hbig]
        refine ⟨by simp, by simp, by simp, ?_⟩
        intro h0 hs ht
        exfalso
        unfold UINT_MAX at hbig
        omega
      · rw [if_neg hbig]
        have hs32 : src.length < 2 ^ 32 := by unfold UINT_MAX at hbig; omega
        have ht32 : trg.length < 2 ^ 32 := by unfold UINT_MAX at hbig; omega
        obtain ⟨s, e1, hsem, hmem, _⟩ := initState_ok src trg mx hs32 ht32 htne
        rw [e1]
        simp only [Res.bind_ok]
        rw [← h2] at hsem
        obtain ⟨t1, t2, t3⟩ := mainLoop_ok ix trg (hdrBytes src.length ++ hdrBytes trg.length) mx (by rw [h2]; exact h3) (by rw [h2]; exact hs32)
          trg.length s (by rw [h2] at hsem ⊢; exact hsem)
        cases hr : mainLoop ix trg mx trg.length s with
        | ub =>
          refine ⟨by simp, fun hN => absurd hr (t1 hN hmem (by omega)), by simp, fun _ _ hN => absurd hr (t1 hN hmem (by omega))⟩
        | err e => exact absurd hr (t2 e)
        | ok s' =>
          simp only [Res.bind_ok]
          obtain ⟨hs', hend⟩ := t3 s' hr
          obtain ⟨is, ops, hb, he, hv⟩ := hs'.ex
          rw [h2] at hv
          have hbl : (if s'.inscnt ≠ 0 then s'.buf.set (s'.buf.length - s'.inscnt - 1) (UInt8.ofNat s'.inscnt) else s'.buf).length
              = s'.buf.length := by split <;> simp
          generalize hfin : (if s'.inscnt ≠ 0 then s'.buf.set (s'.buf.length - s'.inscnt - 1) (UInt8.ofNat s'.inscnt) else s'.buf) = fin at *
          by_cases hm : mx ≠ 0 ∧ mx < fin.length
          · rw [if_pos hm]
            exact ⟨by simp, by simp, by simp, fun h => absurd h hm.1⟩
          · rw [if_neg hm]
            have hdata : s'.data = trg.length := by
              rcases hend with h | h
              · exact h
              · exact absurd (by rw [hbl]; exact h) hm
            refine ⟨?_, by simp, by simp, fun _ _ _ _ _ => ⟨fin, rfl⟩⟩
            intro d hd
            cases hd
            refine ⟨hs32, ht32, by omega, ?_⟩
            by_cases h0 : s'.inscnt = 0
            · refine ⟨is, ops, ?_, he, ?_⟩
              · rw [← hfin]; simp [h0, hb, pending]
              · rw [hv, h0, hdata]; simp
            · have hfl := insert_flush src trg is ops s'.data s'.inscnt (by omega) (by have := hs'.hi2; omega) hs'.hi hs'.hd he hv
              refine ⟨_, _, ?_, hfl.1, by rw [hfl.2, hdata]; simp⟩
              rw [← hfin, if_pos h0, hb]
              simp only [pending]
              rw [if_neg h0, set_slot _ _ _ _ _ (by have := hs'.hi; have := hs'.hd; simp; omega)]
              simp

/-- **C05.** For every base, every target and every size limit: if the library produces a delta, applying that delta to the same
base gives back exactly the target. -/
theorem C05_create_apply (base target : Bytes) (maxSize : Nat) (delta : Bytes)
    (h : create base target maxSize = .ok (some delta)) : apply base delta = .ok target := by
  obtain ⟨hb, ht, _, is, ops, hd, he, hv⟩ := (create_char base target maxSize).1 delta h
  subst hd
  unfold apply
  rw [List.append_assoc, hdrBytes_read _ _ hb]
  simp only [Res.bind_ok, ne_eq, not_true_eq_false, if_false]
  rw [hdrBytes_read _ _ ht]
  simp only [Res.bind_ok]
  have := applyLoop_complete base target.length is ops he ops.length [] target hv (by simp) (Nat.le_refl _)
  simpa using this

/-- **C05**, limit: a delta produced under a size limit never exceeds it. -/
theorem C05_max_size (base target : Bytes) (maxSize : Nat) (delta : Bytes)
    (h : create base target maxSize = .ok (some delta)) (hm : maxSize ≠ 0) : delta.length ≤ maxSize :=
  ((create_char base target maxSize).1 delta h).2.2.1 hm

/-- **C05**, memory safety and termination of the encoder: for targets up to 715 827 860 bytes it never reads outside the base or
target, never writes outside its output buffer, never indexes outside its hash tables and always terminates.
(Beyond that bound the 32-bit computation `bufsize * 3` in the C code can wrap.) -/
theorem C05_safe (base target : Bytes) (maxSize : Nat) (ht : target.length ≤ 715827860) : create base target maxSize ≠ .ub :=
  (create_char base target maxSize).2.1 (by omega)

/-- **C05**, availability: without a limit a delta is always produced for nonempty buffers of admissible size. -/
theorem C05_total (base target : Bytes) (hb : base ≠ []) (ht : target ≠ []) (hb32 : base.length < 2 ^ 32)
    (hl : target.length ≤ 715827860) : ∃ delta, create base target 0 = .ok (some delta) ∧ apply base delta = .ok target := by
  obtain ⟨d, h⟩ := (create_char base target 0).2.2.2 rfl hb32 (by omega) hb ht
  exact ⟨d, h, C05_create_apply base target 0 d h⟩

/-- The encoder finds a copy (a 34-byte base, the same 33 bytes back plus one literal): the hypotheses of `C05_create_apply` are met
by a run that goes through the hash table, the backward extension and the copy emission. -/
example : create b!"abcdefghijklmnopqrstuvwxyz01234567" b!"abcdefghijklmnopqrstuvwxyz0123456X" 0 =
    .ok (some [34, 34, 0x90, 33, 1, c!"X"]) := by decide +kernel
example : create b!"abcdefghijklmnopqrstuvwxyz01234567" b!"0123456789" 0 =
    .ok (some ([34, 10, 10] ++ b!"0123456789")) := by decide +kernel
example : create b!"abcdefghijklmnopqrstuvwxyz01234567" b!"0123456789abcdefghijklmnop" 5 = .err EBUFS := by decide +kernel

/-- `n` is the size recorded in a header `h`: a base-128 number of at most five bytes, taken modulo `2^32` as the C code does. -/
def Header (n : Nat) (h : Bytes) : Prop := ∃ m, EncodesSize m h ∧ h.length ≤ 5 ∧ n = m % 2 ^ 32

/-- **C06.** Applying a delta succeeds with result `out` exactly when the delta is a header for the size of the base, a header for the
size of `out`, and a sequence of well-formed instructions, all inside the base, whose concatenated results are `out`.
Everything else is refused or (see `C06_safe`) an overlong header. -/
theorem C06_exact (base delta out : Bytes) :
    apply base delta = .ok out ↔
      ∃ h1 h2 ops is, delta = h1 ++ h2 ++ ops ∧ Header base.length h1 ∧ Header out.length h2 ∧
        EncodesAll is ops ∧ evalAll base is = some out := by
  constructor
  · intro h
    unfold apply at h
    cases e1 : hdrSz 0 0 delta with
    | err e => rw [e1] at h; simp at h
    | ub => rw [e1] at h; simp at h
    | ok x =>
      obtain ⟨n1, d1⟩ := x
      rw [e1] at h
      simp only [Res.bind_ok] at h
      split at h
      · cases h
      · rename_i hn
        cases e2 : hdrSz 0 0 d1 with
        | err e => rw [e2] at h; simp at h
        | ub => rw [e2] at h; simp at h
        | ok x =>
          obtain ⟨n2, d2⟩ := x
          rw [e2] at h
          simp only [Res.bind_ok] at h
          obtain ⟨m1, h1, a1, a2, a3, a4⟩ := hdrSz_sound delta 0 0 n1 d1 (by simp) (by simp) e1
          obtain ⟨m2, h2, b1, b2, b3, b4⟩ := hdrSz_sound d1 0 0 n2 d2 (by simp) (by simp) e2
          obtain ⟨hl, is, x, c1, c2, c3⟩ := applyLoop_sound base n2 d2.length [] d2 out h
          simp only [List.nil_append] at c3
          subst c3
          refine ⟨h1, h2, d2, is, by rw [a1, b1, List.append_assoc], ⟨m1, a2, by omega, ?_⟩, ⟨m2, b2, by omega, ?_⟩, c1, c2⟩
          · have : n1 = base.length := by omega
            rw [← this, a4]; simp
          · rw [hl, b4]; simp
  · rintro ⟨h1, h2, ops, is, rfl, ⟨m1, a1, a2, a3⟩, ⟨m2, b1, b2, b3⟩, he, hv⟩
    unfold apply
    have e1 := hdrSz_complete m1 h1 (h2 ++ ops) a1 0 0 (by omega) (by simp) (by simp)
    have e2 := hdrSz_complete m2 h2 ops b1 0 0 (by omega) (by simp) (by simp)
    simp only [Nat.mul_zero, Nat.pow_zero, Nat.mul_one, Nat.zero_add] at e1 e2
    rw [List.append_assoc, e1]
    simp only [Res.bind_ok, ← a3, ne_eq, not_true_eq_false, if_false, e2, ← b3]
    simpa using applyLoop_complete base out.length is ops he ops.length [] out hv (by simp) (Nat.le_refl _)

/-- **C06**, memory safety: on every base and every delta, `apply` never reads outside the two buffers and never writes
outside a result buffer of the announced size; the only undefined behaviour reachable is the 32-bit shift in a size
header that is longer than five bytes. -/
theorem C06_safe (base delta : Bytes) (h : apply base delta = .ub) :
    hdrSz 0 0 delta = .ub ∨ ∃ n d, hdrSz 0 0 delta = .ok (n, d) ∧ hdrSz 0 0 d = .ub := by
  unfold apply at h
  cases e1 : hdrSz 0 0 delta with
  | err e => rw [e1] at h; simp at h
  | ub => exact .inl rfl
  | ok x =>
    obtain ⟨n1, d1⟩ := x
    rw [e1] at h
    simp only [Res.bind_ok] at h
    split at h
    · cases h
    · right
      refine ⟨n1, d1, rfl, ?_⟩
      cases e2 : hdrSz 0 0 d1 with
      | err e => rw [e2] at h; simp at h
      | ub => rfl
      | ok x =>
        obtain ⟨n2, d2⟩ := x
        rw [e2] at h
        simp only [Res.bind_ok] at h
        exact absurd h (applyLoop_no_ub base n2 d2.length [] d2 (by simp) (Nat.le_refl _))

/-- the size headers themselves: undefined exactly when five continuation bytes are followed by a sixth byte -/
theorem hdrSz_ub (d : Bytes) (k r : Nat) (hk : k ≤ 5) (h : hdrSz r (7 * k) d = .ub) :
    5 - k < d.length ∧ ∀ c ∈ d.take (5 - k), 128 ≤ c.toNat := by
  induction d generalizing k r with
  | nil => simp [hdrSz] at h
  | cons c d ih =>
    rw [hdrSz] at h
    by_cases h5 : 32 ≤ 7 * k
    · have : k = 5 := by omega
      subst this; simp
    · rw [if_neg h5] at h
      simp only at h
      split at h
      · rename_i hc
        obtain ⟨i1, i2⟩ := ih (k + 1) _ (by omega) h
        refine ⟨by simp; omega, ?_⟩
        rw [show 5 - k = (5 - (k + 1)) + 1 by omega, List.take_succ_cons]
        intro x hx
        rcases List.mem_cons.mp hx with rfl | hx
        · exact hc
        · exact i2 x hx
      · cases h

/-- **C06**, corollary: a delta none of whose first ten bytes open a run of five continuation bytes is applied without
undefined behaviour; in particular every delta shorter than six bytes. -/
theorem C06_safe_headers (base delta : Bytes) (h1 : ¬ (5 < delta.length ∧ ∀ c ∈ delta.take 5, 128 ≤ c.toNat))
    (h2 : ∀ n d, hdrSz 0 0 delta = .ok (n, d) → ¬ (5 < d.length ∧ ∀ c ∈ d.take 5, 128 ≤ c.toNat)) :
    apply base delta ≠ .ub := by
  intro h
  rcases C06_safe base delta h with h | ⟨n, d, hn, h⟩
  · exact h1 (hdrSz_ub delta 0 0 (by omega) h)
  · exact h2 n d hn (hdrSz_ub d 0 0 (by omega) h)

/-- The finding behind the side condition of `C06_safe`: a hostile six-byte size header reaches an undefined shift. -/
example : apply [] [0x80, 0x80, 0x80, 0x80, 0x80, 0x01] = .ub := by decide +kernel
/-- A five-byte header is silently reduced modulo `2^32`: this one announces `2^32 + 1` and is accepted for a one-byte base. -/
example : apply b!"a" [0x81, 0x80, 0x80, 0x80, 0x10, 0x01, 0x90, 0x01] = .ok b!"a" := by decide +kernel
/-- A copy reaching outside the base is refused. -/
example : apply b!"abcd" [4, 3, 0x91, 2, 3] = .err (-1) := by decide +kernel
example : apply b!"abcd" [4, 4, 0x91, 2, 2, 2, c!"x", c!"y"] = .ok b!"cdxy" := by decide +kernel

end Verif.Delta
