import Verif.PackIdx.Lemmas
/-! # Lemmas: reading index files -/
namespace Verif.PackIdx
open Spec Verif.Oid.Spec Verif.B

theorem bind_ok {α β : Type} (a : α) (f : α → Res β) : (Res.ok a >>= f) = f a := rfl
theorem bind_err {α β : Type} (e : Int) (f : α → Res β) : ((Res.err e : Res α) >>= f) = .err e := rfl

/-- the fan-out table -/
def fanAt (file : Bytes) (base j : Nat) : Nat :=
  match rd32 file (base + 4 * j) with
  | .ok v => v.toNat
  | _ => 0

theorem fanLoop_ok {file : Bytes} {base : Nat} : ∀ k nr n, k ≤ 256 → fanLoop file base k nr = .ok n →
    nr ≤ n ∧ (∀ j, 256 - k ≤ j → j < 256 → (∃ v, rd32 file (base + 4 * j) = .ok v ∧ v.toNat = fanAt file base j) ∧ nr ≤ fanAt file base j ∧ fanAt file base j ≤ n) ∧
    (∀ i j, 256 - k ≤ i → i ≤ j → j < 256 → fanAt file base i ≤ fanAt file base j) ∧ (k ≠ 0 → n = fanAt file base 255) := by
  intro k
  induction k with
  | zero =>
    intro nr n _ h
    rw [fanLoop] at h
    have := Res.ok.inj h
    subst this
    exact ⟨Nat.le_refl _, fun j h1 h2 => by omega, fun i j h1 h2 h3 => by omega, fun h => absurd rfl h⟩
  | succ k ih =>
    intro nr n hk h
    rw [fanLoop] at h
    obtain ⟨v, hv, h⟩ := bind_ok_inv h
    have hat : fanAt file base (256 - (k + 1)) = v.toNat := by unfold fanAt; rw [hv]
    split at h
    · cases h
    rename_i hle
    obtain ⟨g1, g2, g3, g4⟩ := ih v.toNat n (by omega) h
    have key : ∀ j, 256 - (k + 1) ≤ j → j < 256 → j = 256 - (k + 1) ∨ 256 - k ≤ j := fun j _ _ => by omega
    refine ⟨by omega, fun j h1 h2 => ?_, fun i j h1 h2 h3 => ?_, fun _ => ?_⟩
    · rcases key j h1 h2 with rfl | hj
      · exact ⟨⟨v, hv, hat.symm⟩, by omega, by omega⟩
      · obtain ⟨e1, e2, e3⟩ := g2 j hj h2
        exact ⟨e1, by omega, e3⟩
    · rcases key i h1 (by omega) with rfl | hi
      · rcases key j (by omega) h3 with rfl | hj
        · exact Nat.le_refl _
        · rw [hat]; exact (g2 j hj h3).2.1
      · exact g3 i j hi h2 h3
    · rcases Nat.eq_zero_or_pos k with rfl | hk0
      · rw [fanLoop] at h
        rw [show 255 = 256 - (0 + 1) from rfl, hat, Res.ok.inj h]
      · exact g4 (by omega)

theorem fanLoop_of {file : Bytes} {base : Nat} (h : ∀ j < 256, ∃ v, rd32 file (base + 4 * j) = .ok v ∧ v.toNat = fanAt file base j)
    (hm : ∀ i j, i ≤ j → j < 256 → fanAt file base i ≤ fanAt file base j) : ∀ k nr, k ≤ 256 → (k ≠ 0 → nr ≤ fanAt file base (256 - k)) →
    fanLoop file base k nr = .ok (if k = 0 then nr else fanAt file base 255) := by
  intro k
  induction k with
  | zero => intro nr _ _; rfl
  | succ k ih =>
    intro nr hk hn
    obtain ⟨v, hv, hv2⟩ := h (256 - (k + 1)) (by omega)
    rw [fanLoop, hv, bind_ok, if_neg (by have := hn (by omega); omega), ih _ (by omega)]
    · rcases Nat.eq_zero_or_pos k with rfl | hk0
      · rw [if_pos rfl, if_neg (by omega), hv2]
      · rw [if_neg (by omega), if_neg (by omega)]
    · intro hk0
      rw [hv2]
      exact hm _ _ (by omega) (by omega)

/-- what is known about an accepted index -/
structure Accepted (osz : Nat) (p : Idx) (base : Nat) : Prop where
  version : p.version = 1 ∧ base = 0 ∨ p.version = 2 ∧ base = 8
  fan : ∀ j < 256, (∃ v, rd32 p.file (base + 4 * j) = .ok v ∧ v.toNat = fanAt p.file base j) ∧ fanAt p.file base j ≤ p.nr
  mono : ∀ i j, i ≤ j → j < 256 → fanAt p.file base i ≤ fanAt p.file base j
  last : p.nr = fanAt p.file base 255
  size1 : p.version = 1 → p.file.length = 1024 + p.nr * (osz + 4) + osz * 2
  size2 : p.version = 2 → 1032 + p.nr * (osz + 8) + osz * 2 ≤ p.file.length ∧ p.file.length ≤ 1032 + p.nr * (osz + 8) + osz * 2 + (p.nr - 1) * 8

theorem check_accepted {osz : Nat} {file : Bytes} {p : Idx} (h : checkIndex osz file = .ok p) :
    p.file = file ∧ Accepted osz p (if p.version > 1 then 8 else 0) := by
  unfold checkIndex at h
  split at h
  · cases h
  obtain ⟨sig, _, h⟩ := bind_ok_inv h
  obtain ⟨v, _, h⟩ := bind_ok_inv h
  split at h
  · cases h
  rename_i hv
  dsimp only at h
  obtain ⟨nr, hnr, h⟩ := bind_ok_inv h
  obtain ⟨g1, g2, g3, g4⟩ := fanLoop_ok _ _ _ (Nat.le_refl _) hnr
  have hver : (if sig = 0xff744f63 then v.toNat else 1) = if sig = 0xff744f63 then 2 else 1 := by
    by_cases hs : sig = 0xff744f63
    · rw [if_pos hs, if_pos hs]
      have : v = 2 := Decidable.byContradiction fun hh => hv ⟨hs, hh⟩
      rw [this]; rfl
    · rw [if_neg hs, if_neg hs]
  rw [hver] at h g2 g3 g4
  by_cases hs : sig = 0xff744f63
  · simp only [if_pos hs] at h g2 g3 g4
    rw [if_neg (by decide)] at h
    by_cases hsz : file.length < 8 + 4 * 256 + nr * (osz + 4 + 4) + osz * 2 ∨
      file.length > if nr ≠ 0 then 8 + 4 * 256 + nr * (osz + 4 + 4) + osz * 2 + (nr - 1) * 8 else 8 + 4 * 256 + nr * (osz + 4 + 4) + osz * 2
    · rw [if_pos hsz] at h; cases h
    rw [if_neg hsz] at h
    rw [not_or, Nat.not_lt, Nat.not_lt] at hsz
    have := Res.ok.inj h
    subst this
    refine ⟨rfl, .inr ⟨rfl, rfl⟩, fun j hj => ⟨(g2 j (by omega) hj).1, (g2 j (by omega) hj).2.2⟩, fun i j h1 h2 => g3 i j (by omega) h1 h2, g4 (by decide),
      fun hh => absurd (show 2 = 1 from hh) (by decide), fun _ => ?_⟩
    dsimp only
    obtain ⟨a, b⟩ := hsz
    rw [show osz + 4 + 4 = osz + 8 from rfl] at a b
    split at b <;> omega
  · simp only [if_neg hs] at h g2 g3 g4
    rw [if_pos trivial] at h
    split at h
    · cases h
    rename_i hsz
    have := Res.ok.inj h
    subst this
    refine ⟨rfl, .inl ⟨rfl, rfl⟩, fun j hj => ⟨(g2 j (by omega) hj).1, (g2 j (by omega) hj).2.2⟩, fun i j h1 h2 => g3 i j (by omega) h1 h2, g4 (by decide),
      fun _ => ?_, fun hh => absurd (show 1 = 2 from hh) (by decide)⟩
    dsimp only
    omega

/-- the id table of an index -/
def tableOf (osz : Nat) (p : Idx) : Table := if p.version > 1 then ⟨p.file, 8 + 4 * 256, osz⟩ else ⟨p.file, 4 * 256 + 4, osz + 4⟩

theorem table_get {osz : Nat} {p : Idx} {base : Nat} (h : Accepted osz p base) {i : Nat} (hi : i < p.nr) :
    ∃ id, Table.get osz (tableOf osz p) i = .ok id ∧ id.length = osz := by
  have hm : (i + 1) * osz ≤ p.nr * osz := Nat.mul_le_mul_right _ hi
  rcases h.version with ⟨hv, _⟩ | ⟨hv, _⟩
  · have := h.size1 hv
    unfold tableOf Table.get
    rw [if_neg (by omega)]
    refine slice_len ?_
    dsimp only
    rw [Nat.mul_add] at this ⊢
    rw [Nat.add_mul] at hm
    omega
  · have := (h.size2 hv).1
    unfold tableOf Table.get
    rw [if_pos (by omega)]
    refine slice_len ?_
    dsimp only
    rw [Nat.mul_add] at this
    rw [Nat.add_mul] at hm
    omega

/-- the ids in the table of an index -/
def idsOf (osz : Nat) (p : Idx) : List Bytes :=
  (List.range p.nr).map fun i => match Table.get osz (tableOf osz p) i with | .ok id => id | _ => []

theorem idsOf_length (osz : Nat) (p : Idx) : (idsOf osz p).length = p.nr := by unfold idsOf; simp

theorem idsOf_ok {osz : Nat} {p : Idx} {base : Nat} (h : Accepted osz p base) : TableOK osz (tableOf osz p) (idsOf osz p) := by
  refine ⟨fun i hi => ?_, fun id hid => ?_⟩
  · have hi' : i < p.nr := by rw [idsOf_length] at hi; exact hi
    obtain ⟨id, hid, _⟩ := table_get h hi'
    have : (idsOf osz p)[i]? = some id := by unfold idsOf; simp [hid, hi']
    rw [(List.getElem?_eq_some_iff.mp this).2, hid]
  · unfold idsOf at hid
    obtain ⟨i, hi, rfl⟩ := List.mem_map.mp hid
    obtain ⟨id, h1, h2⟩ := table_get h (List.mem_range.mp hi)
    rw [h1]
    exact h2

theorem find_safe {osz : Nat} {t : Table} {ids : List Bytes} (ht : TableOK osz t ids) {short : Bytes} (hs : short.length = osz) {lo hi : Nat} (len : Nat)
    (h1 : lo ≤ hi) (h2 : hi ≤ ids.length) :
    (∃ i, ∃ h : i < ids.length, find osz t ids.length lo hi short len = .ok (i, ids[i])) ∨ (∃ e, find osz t ids.length lo hi short len = .err e) := by
  obtain ⟨r, hr, _, _, h4⟩ := lookup_safe ht hs (hi - lo + 1) lo hi h1 h2
  rw [find_eq ht hs len hr fun h => (h4 h).2]
  split
  · rename_i h
    split
    · exact .inr ⟨_, rfl⟩
    · refine .inl ⟨r.2, h.1, ?_⟩
      rw [List.getD_eq_getElem?_getD, List.getElem?_eq_getElem h.1]
      rfl
  · exact .inr ⟨_, rfl⟩

theorem nth_safe {osz : Nat} {p : Idx} {base : Nat} (h : Accepted osz p base) {n : Nat} (hn : n < p.nr) : nthOffset osz p n ≠ .ub := by
  have hm : (n + 1) * (osz + 4) ≤ p.nr * (osz + 4) := Nat.mul_le_mul_right _ hn
  unfold nthOffset
  rcases h.version with ⟨hv, _⟩ | ⟨hv, _⟩
  · rw [if_pos hv]
    have := h.size1 hv
    obtain ⟨x, hx⟩ := @rd32_ok p.file (4 * 256 + (osz + 4) * n) (by
      rw [Nat.add_mul, Nat.mul_comm n] at hm
      omega)
    rw [hx, bind_ok]
    exact fun h => nomatch h
  · rw [if_neg (by omega)]
    dsimp only
    have hsz := (h.size2 hv).1
    have e : p.nr * (osz + 8) = p.nr * (osz + 4) + p.nr * 4 := by rw [← Nat.mul_add]
    obtain ⟨x, hx⟩ := @rd32_ok p.file (4 * 256 + 8 + p.nr * (osz + 4) + 4 * n) (by omega)
    rw [hx, bind_ok]
    split
    · exact fun h => nomatch h
    split
    · exact fun h => nomatch h
    rename_i _ hb
    obtain ⟨y, hy⟩ := @rd32_ok p.file (4 * 256 + 8 + p.nr * (osz + 4) + p.nr * 4 + x.toNat % 2 ^ 31 * 8 % 2 ^ 32) (by omega)
    obtain ⟨z, hz⟩ := @rd32_ok p.file (4 * 256 + 8 + p.nr * (osz + 4) + p.nr * 4 + x.toNat % 2 ^ 31 * 8 % 2 ^ 32 + 4) (by omega)
    rw [hy, bind_ok, hz, bind_ok]
    exact fun h => nomatch h

/-- the range of the search, and what is searched -/
theorem findOffset_eq {osz : Nat} {p : Idx} {base : Nat} (h : Accepted osz p base) {b0 : UInt8} {rest : Bytes} {len : Nat} :
    findOffset osz p (b0 :: rest) len =
      (find osz (tableOf osz p) p.nr (if b0 = 0 then 0 else fanAt p.file base (b0.toNat - 1)) (fanAt p.file base b0.toNat) (b0 :: rest) len >>= fun r =>
       nthOffset osz p r.1 >>= fun off => if off ≥ 2 ^ 63 then .err (-1) else .ok (off, r.2)) := by
  have hb := b0.toNat_lt
  have hbase : (if p.version > 1 then 2 else 0) * 4 = base := by
    rcases h.version with ⟨hv, rfl⟩ | ⟨hv, rfl⟩
    · rw [if_neg (by omega)]
    · rw [if_pos (by omega)]
  have hlen : 1024 ≤ p.file.length := by
    rcases h.version with ⟨hv, _⟩ | ⟨hv, _⟩
    · have := h.size1 hv; omega
    · have := (h.size2 hv).1; omega
  have hd : (if p.version > 1 then 2 else 0) ≤ 2 := by split <;> omega
  obtain ⟨v, hv, hv2⟩ := (h.fan b0.toNat (by omega)).1
  show (if b0.toNat + (if p.version > 1 then 2 else 0) ≥ p.file.length then _ else _) = _
  rw [if_neg (by omega), show 4 * ((if p.version > 1 then 2 else 0) + b0.toNat) = base + 4 * b0.toNat by omega, hv, bind_ok, hv2]
  by_cases h0 : b0 = 0
  · rw [if_pos h0, if_pos h0, bind_ok]
    rfl
  · rw [if_neg h0, if_neg h0]
    have hne : b0.toNat ≠ 0 := fun hh => h0 (UInt8.toNat_inj.mp hh)
    obtain ⟨w, hw, hw2⟩ := (h.fan (b0.toNat - 1) (by omega)).1
    rw [show 4 * ((if p.version > 1 then 2 else 0) + (b0.toNat - 1)) = base + 4 * (b0.toNat - 1) by omega, hw, bind_ok, bind_ok, hw2]
    rfl

theorem fan_le {osz : Nat} {p : Idx} {base : Nat} (h : Accepted osz p base) (b0 : UInt8) :
    (if b0 = 0 then 0 else fanAt p.file base (b0.toNat - 1)) ≤ fanAt p.file base b0.toNat ∧ fanAt p.file base b0.toNat ≤ p.nr := by
  have hb := b0.toNat_lt
  refine ⟨?_, (h.fan _ (by omega)).2⟩
  split
  · omega
  · exact h.mono _ _ (by omega) (by omega)

theorem findOffset_safe {osz : Nat} {p : Idx} {base : Nat} (h : Accepted osz p base) {short : Bytes} (hs : short.length = osz) (h0 : 0 < osz) (len : Nat) :
    findOffset osz p short len ≠ .ub := by
  cases short with
  | nil => simp at hs; omega
  | cons b0 rest =>
    rw [findOffset_eq h]
    have hle := fan_le h b0
    rcases find_safe (idsOf_ok h) hs len hle.1 (by rw [idsOf_length]; exact hle.2) with ⟨i, hi, hf⟩ | ⟨e, hf⟩ <;> rw [idsOf_length] at hf
    · rw [hf, bind_ok]
      have hn := nth_safe h (n := i) (by rw [idsOf_length] at hi; exact hi)
      dsimp only
      cases hr : nthOffset osz p i with
      | ok x => rw [bind_ok]; split <;> exact fun h => nomatch h
      | err e => exact fun h => nomatch h
      | ub => exact absurd hr hn
    · rw [hf]; exact fun h => nomatch h

/-! ### listing -/

theorem foreach1_ok {osz : Nat} {p : Idx} {base : Nat} (h : Accepted osz p base) (hv : p.version = 1) : ∀ n, n ≤ p.nr →
    ∃ r, foreachLoop1 osz p n = .ok r ∧ r.length = n ∧ ∀ j (hj : j < r.length), Table.get osz (tableOf osz p) (p.nr - n + j) = .ok r[j].1 ∧
      nthOffset osz p (p.nr - n + j) = .ok r[j].2 := by
  intro n
  induction n with
  | zero => intro _; exact ⟨[], rfl, rfl, fun j hj => absurd hj (by simp)⟩
  | succ n ih =>
    intro hn
    obtain ⟨r, hr, hl, hg⟩ := ih (by omega)
    have hi : p.nr - (n + 1) < p.nr := by omega
    obtain ⟨id, hid, _⟩ := table_get h hi
    have hsz := h.size1 hv
    have hm : (p.nr - (n + 1) + 1) * (osz + 4) ≤ p.nr * (osz + 4) := Nat.mul_le_mul_right _ (by omega)
    obtain ⟨x, hx⟩ := @rd32_ok p.file (4 * 256 + (osz + 4) * (p.nr - (n + 1))) (by
      rw [Nat.add_mul, Nat.mul_comm (p.nr - (n + 1))] at hm
      omega)
    refine ⟨(id, x.toNat) :: r, ?_, by simp [hl], fun j hj => ?_⟩
    · rw [foreachLoop1]
      rw [hx, bind_ok]
      have : slice p.file (4 * 256 + (osz + 4) * (p.nr - (n + 1)) + 4) osz = .ok id := by
        rw [← hid]
        unfold tableOf Table.get
        rw [if_neg (by omega)]
        dsimp only
        congr 1
        rw [Nat.mul_comm (osz + 4)]
        omega
      rw [this, bind_ok, hr]
      rfl
    · cases j with
      | zero =>
        refine ⟨hid, ?_⟩
        unfold nthOffset
        rw [if_pos hv]
        show (rd32 p.file (4 * 256 + (osz + 4) * (p.nr - (n + 1))) >>= _) = _
        rw [hx]
        rfl
      | succ j =>
        have := hg j (by simpa using hj)
        rw [show p.nr - (n + 1) + (j + 1) = p.nr - n + j by omega]
        exact this

theorem foreach2_safe {osz : Nat} {p : Idx} {base : Nat} (h : Accepted osz p base) (hv : p.version = 2) (h8 : 8 ≤ osz) : ∀ n, n ≤ p.nr →
    (∃ e, foreachLoop osz p n = .err e) ∨
    ∃ r, foreachLoop osz p n = .ok r ∧ r.length = n ∧ ∀ j (hj : j < r.length), Table.get osz (tableOf osz p) (p.nr - n + j) = .ok r[j].1 ∧
      (p.file.length < 2 ^ 32 → nthOffset osz p (p.nr - n + j) = .ok r[j].2) := by
  intro n
  induction n with
  | zero => intro _; exact .inr ⟨[], rfl, rfl, fun j hj => absurd hj (by simp)⟩
  | succ n ih =>
    intro hn
    have hi : p.nr - (n + 1) < p.nr := by omega
    obtain ⟨id, hid, _⟩ := table_get h hi
    have hsz := (h.size2 hv).1
    have e : p.nr * (osz + 8) = p.nr * (osz + 4) + p.nr * 4 := by rw [← Nat.mul_add]
    have e1 : (osz + 4) * p.nr = p.nr * (osz + 4) := Nat.mul_comm _ _
    have e2 : (osz + 8) * p.nr = p.nr * (osz + 8) := Nat.mul_comm _ _
    obtain ⟨x, hx⟩ := @rd32_ok p.file (8 + 4 * 256 + (osz + 4) * p.nr + 4 * (p.nr - (n + 1))) (by omega)
    have hslice : slice p.file (8 + 4 * 256 + osz * (p.nr - (n + 1))) osz = .ok id := by
      rw [← hid]
      unfold tableOf Table.get
      rw [if_pos (by omega)]
      dsimp only
      congr 2
      exact Nat.mul_comm _ _
    rw [foreachLoop]
    dsimp only
    rw [hx, bind_ok, hslice]
    have hfin : ∀ off : Nat, (p.file.length < 2 ^ 32 → nthOffset osz p (p.nr - (n + 1)) = .ok off) →
        (∃ e, (Res.ok off >>= fun off => Res.ok id >>= fun id => foreachLoop osz p n >>= fun r => Res.ok ((id, off) :: r)) = Res.err e) ∨
        ∃ r, (Res.ok off >>= fun off => Res.ok id >>= fun id => foreachLoop osz p n >>= fun r => Res.ok ((id, off) :: r)) = Res.ok r ∧ r.length = n + 1 ∧
          ∀ j (hj : j < r.length), Table.get osz (tableOf osz p) (p.nr - (n + 1) + j) = .ok r[j].1 ∧
            (p.file.length < 2 ^ 32 → nthOffset osz p (p.nr - (n + 1) + j) = .ok r[j].2) := by
      intro off hoff
      rw [bind_ok, bind_ok]
      rcases ih (by omega) with ⟨e, he⟩ | ⟨r, hr, hl, hg⟩
      · rw [he]; exact .inl ⟨e, rfl⟩
      · rw [hr]
        refine .inr ⟨_, rfl, by simp [hl], fun j hj => ?_⟩
        cases j with
        | zero => exact ⟨hid, hoff⟩
        | succ j =>
          have := hg j (by simpa using hj)
          rw [show p.nr - (n + 1) + (j + 1) = p.nr - n + j by omega]
          exact this
    by_cases hbig : x.toNat ≥ 2 ^ 31
    · rw [if_pos hbig]
      by_cases hptr : 8 + 4 * 256 + (osz + 8) * p.nr + x.toNat % 2 ^ 31 * 8 ≥ p.file.length - osz
      · rw [if_pos hptr]; exact .inl ⟨_, rfl⟩
      · rw [if_neg hptr]
        obtain ⟨y, hy⟩ := @rd32_ok p.file (8 + 4 * 256 + (osz + 8) * p.nr + x.toNat % 2 ^ 31 * 8) (by omega)
        obtain ⟨z, hz⟩ := @rd32_ok p.file (8 + 4 * 256 + (osz + 8) * p.nr + x.toNat % 2 ^ 31 * 8 + 4) (by omega)
        rw [hy, bind_ok, hz, bind_ok]
        refine hfin _ fun hlt => ?_
        unfold nthOffset
        rw [if_neg (by omega)]
        dsimp only
        rw [show 4 * 256 + 8 + p.nr * (osz + 4) + 4 * (p.nr - (n + 1)) = 8 + 4 * 256 + (osz + 4) * p.nr + 4 * (p.nr - (n + 1)) by omega, hx, bind_ok,
          if_neg (by omega), if_neg (by omega),
          show 4 * 256 + 8 + p.nr * (osz + 4) + p.nr * 4 + x.toNat % 2 ^ 31 * 8 % 2 ^ 32 = 8 + 4 * 256 + (osz + 8) * p.nr + x.toNat % 2 ^ 31 * 8 by omega,
          hy, bind_ok, hz, bind_ok]
    · rw [if_neg hbig]
      refine hfin _ fun hlt => ?_
      unfold nthOffset
      rw [if_neg (by omega)]
      dsimp only
      rw [show 4 * 256 + 8 + p.nr * (osz + 4) + 4 * (p.nr - (n + 1)) = 8 + 4 * 256 + (osz + 4) * p.nr + 4 * (p.nr - (n + 1)) by omega, hx, bind_ok,
        if_pos (by omega)]

/-- counting in an ordered list -/
theorem lt_count {ids : List Bytes} (hs : ids.Pairwise (· < ·)) (P : Bytes → Bool) (hP : ∀ a ∈ ids, ∀ b ∈ ids, a < b → P b = true → P a = true) :
    ∀ i (hi : i < ids.length), i < (ids.filter P).length ↔ P ids[i] = true := by
  induction ids with
  | nil => intro i hi; simp at hi
  | cons x xs ih =>
    rw [List.pairwise_cons] at hs
    intro i hi
    by_cases hx : P x = true
    · rw [List.filter_cons_of_pos hx]
      cases i with
      | zero => simp [hx]
      | succ i =>
        rw [List.length_cons, Nat.add_lt_add_iff_right,
          ih hs.2 (fun a ha b hb => hP a (List.mem_cons_of_mem _ ha) b (List.mem_cons_of_mem _ hb)) i (by simpa using hi)]
        rfl
    · have hall : ∀ y ∈ xs, ¬ P y = true := fun y hy h => hx (hP x (by simp) y (List.mem_cons_of_mem _ hy) (hs.1 y hy) h)
      rw [List.filter_cons_of_neg hx, List.filter_eq_nil_iff.mpr (fun y hy => hall y hy)]
      constructor
      · intro h; simp at h
      · intro h
        exfalso
        cases i with
        | zero => exact hx h
        | succ i => exact hall _ (List.getElem_mem _) h

theorem head_mono {a b : Bytes} (h : a < b) (hl : a.length = b.length) : (a.headD 0).toNat ≤ (b.headD 0).toNat := by
  cases a with
  | nil => cases b with
    | nil => simp
    | cons _ _ => simp at hl
  | cons x a => cases b with
    | nil => simp at hl
    | cons y b =>
      rcases List.cons_lt_cons_iff.mp h with h | ⟨h, _⟩
      · have := UInt8.lt_iff_toNat_lt.mp h
        simp only [List.headD_cons]; omega
      · subst h; simp

theorem lt_of_head {a b : Bytes} (h : (a.headD 0).toNat < (b.headD 0).toNat) : a < b := by
  cases b with
  | nil => simp at h
  | cons y b => cases a with
    | nil => simp
    | cons x a => exact List.cons_lt_cons_iff.mpr (.inl (UInt8.lt_iff_toNat_lt.mpr (by simpa using h)))

end Verif.PackIdx
