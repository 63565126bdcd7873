import Verif.PackIdx.Model
import Verif.PackIdx.Spec
import Verif.Oid.Props
import Verif.CmpPrefix
/-! # Lemmas: searching an id table -/
namespace Verif.PackIdx
open Spec Verif.Oid.Spec Verif.B

theorem bind_ok_inv {α β : Type} {r : Res α} {f : α → Res β} {b : β} (h : (r >>= f) = .ok b) : ∃ a, r = .ok a ∧ f a = .ok b := by
  cases r with
  | ok a => exact ⟨a, rfl, h⟩
  | err e => cases h
  | ub => cases h

/-! ### abbreviations and the order -/

theorem digit_ge : ∀ v : UInt8, v < 16 → c!"0" ≤ digit v := by decide +kernel

theorem hex_ge (id : Bytes) : ∀ c ∈ hex id, c!"0" ≤ c := by
  intro c hc
  unfold hex at hc
  obtain ⟨v, hv, rfl⟩ := List.mem_map.mp hc
  exact digit_ge v (Oid.nibbles_lt id v hv)

theorem least_le (m : UInt8) (s t : Bytes) (hl : s.length = t.length) (hs : ∀ c ∈ s, c = m) (ht : ∀ c ∈ t, m ≤ c) : s ≤ t := by
  refine bcmp_le.mp ?_
  induction t generalizing s with
  | nil => have : s = [] := List.length_eq_zero_iff.mp hl; subst this; simp [bcmp]
  | cons x t ih =>
    cases s with
    | nil => simp at hl
    | cons y s =>
      have hy := hs y (by simp)
      have hx := ht x (by simp)
      subst hy
      rw [bcmp]
      split
      · omega
      · split
        · rename_i h1 h2
          rw [UInt8.lt_iff_toNat_lt] at h2
          rw [UInt8.le_iff_toNat_le] at hx
          omega
        · exact ih s (by simpa using hl) (fun c hc => hs c (List.mem_cons_of_mem _ hc)) (fun c hc => ht c (List.mem_cons_of_mem _ hc))

theorem hex_length (id : Bytes) : (hex id).length = 2 * id.length := by unfold hex; simp

theorem hex_le_iff {a b : Bytes} : hex a ≤ hex b ↔ a ≤ b := by
  constructor
  · intro h; exact not_lt.mp fun hh => absurd h (not_le.mpr ((Oid.hex_lt_iff b a).mpr hh))
  · intro h; exact not_lt.mp fun hh => absurd h (not_le.mpr ((Oid.hex_lt_iff b a).mp hh))

/-- a padded abbreviation is the least id with its prefix -/
theorem padded_le {len : Nat} {short id : Bytes} (hl : short.length = id.length) (hp : Padded len short) (h : SamePrefix len short id) :
    short ≤ id := by
  refine hex_le_iff.mp ?_
  unfold SamePrefix at h
  rw [← List.take_append_drop len (hex short), ← List.take_append_drop len (hex id), h]
  refine append_le_append_left _ (least_le c!"0" _ _ ?_ hp ?_)
  · rw [List.length_drop, List.length_drop, hex_length, hex_length, hl]
  · exact fun c hc => hex_ge id c (List.mem_of_mem_drop hc)

theorem samePrefix_iff {len : Nat} {short id : Bytes} (hl : short.length = id.length) :
    SamePrefix len short id ↔ (hex short).take len <+: hex id := by
  unfold SamePrefix
  constructor
  · intro h; rw [h]; exact List.take_prefix _ _
  · intro h
    have h2 := List.prefix_iff_eq_take.mp h
    have h3 : (hex short).length = (hex id).length := by rw [hex_length, hex_length, hl]
    rw [List.length_take, h3] at h2
    rw [h2]
    rcases Nat.le_total len (hex id).length with h4 | h4
    · rw [Nat.min_eq_left h4]
    · rw [Nat.min_eq_right h4, List.take_of_length_le (Nat.le_refl _), List.take_of_length_le h4]

/-- what is between the abbreviation and an id with its prefix has the prefix -/
theorem samePrefix_between {len : Nat} {short x y : Bytes} (hx : short.length = x.length) (hy : short.length = y.length)
    (h1 : short ≤ x) (h2 : x ≤ y) (h : SamePrefix len short y) : SamePrefix len short x := by
  rw [samePrefix_iff hx]
  rw [samePrefix_iff hy] at h
  exact convex' (le_trans (prefix_le (List.take_prefix _ _)) (hex_le_iff.mpr h1)) (hex_le_iff.mpr h2) h

theorem samePrefix_full {len : Nat} {short id : Bytes} (hl : short.length = id.length) (hn : 2 * id.length ≤ len) :
    SamePrefix len short id ↔ short = id := by
  constructor
  · intro h
    unfold SamePrefix at h
    rw [List.take_of_length_le (by rw [hex_length]; omega), List.take_of_length_le (by rw [hex_length]; omega)] at h
    refine Decidable.byContradiction fun hne => ?_
    rcases Classical.em (short < id) with hlt | hlt
    · have := (Oid.hex_lt_iff short id).mpr hlt
      rw [h] at this
      exact lt_irrefl this
    · have hlt' : id < short := lt_of_le_of_ne (not_lt.mp hlt) (fun e => hne e.symm)
      have := (Oid.hex_lt_iff id short).mpr hlt'
      rw [h] at this
      exact lt_irrefl this
  · rintro rfl; rfl

/-! ### the search -/

/-- the table holds these ids -/
structure TableOK (osz : Nat) (t : Table) (ids : List Bytes) : Prop where
  get : ∀ i (h : i < ids.length), Table.get osz t i = .ok ids[i]
  size : ∀ id ∈ ids, id.length = osz

theorem lookup_safe {osz : Nat} {t : Table} {ids : List Bytes} (ht : TableOK osz t ids) {short : Bytes} (hs : short.length = osz) (fuel : Nat) :
    ∀ lo hi, lo ≤ hi → hi ≤ ids.length → ∃ r, lookupId osz t short fuel lo hi = .ok r ∧ lo ≤ r.2 ∧ r.2 ≤ hi ∧ (r.1 = true → r.2 < hi ∧ ids[r.2]? = some short) := by
  induction fuel with
  | zero => intro lo hi h1 h2; exact ⟨_, rfl, Nat.le_refl _, h1, by simp⟩
  | succ fuel ih =>
    intro lo hi h1 h2
    rw [lookupId]
    by_cases h : lo < hi
    · rw [if_pos h]
      dsimp only
      have hm : (lo + hi) / 2 < ids.length := by omega
      rw [ht.get _ hm]
      obtain ⟨c, hc, _, hc0, _⟩ := Oid.memcmp_spec osz ids[(lo + hi) / 2] short (ht.size _ (List.getElem_mem hm)) hs
      show ∃ r, (Oid.cmp osz ids[(lo + hi) / 2] short >>= _) = _ ∧ _
      rw [show Oid.cmp osz ids[(lo + hi) / 2] short = .ok c from hc]
      show ∃ r, (if c = 0 then _ else _) = _ ∧ _
      by_cases h0 : c = 0
      · rw [if_pos h0]
        refine ⟨_, rfl, by dsimp only; omega, by dsimp only; omega, fun _ => ⟨by dsimp only; omega, ?_⟩⟩
        rw [List.getElem?_eq_getElem hm, hc0.mp h0]
      rw [if_neg h0]
      by_cases hp : c > 0
      · rw [if_pos hp]
        obtain ⟨r, g1, g2, g3, g4⟩ := ih lo ((lo + hi) / 2) (by omega) (by omega)
        exact ⟨r, g1, g2, by omega, fun hr => ⟨by have := (g4 hr).1; omega, (g4 hr).2⟩⟩
      · rw [if_neg hp]
        obtain ⟨r, g1, g2, g3, g4⟩ := ih ((lo + hi) / 2 + 1) hi (by omega) h2
        exact ⟨r, g1, by omega, g3, g4⟩
    · rw [if_neg h]
      exact ⟨_, rfl, Nat.le_refl _, h1, by simp⟩

theorem lookup_pos {osz : Nat} {t : Table} {ids : List Bytes} (ht : TableOK osz t ids) (hsort : ids.Pairwise (· < ·)) {short : Bytes}
    (hs : short.length = osz) (fuel : Nat) :
    ∀ lo hi, lo ≤ hi → hi ≤ ids.length → hi - lo < fuel → (∀ i (h : i < ids.length), i < lo → ids[i] < short) →
      (∀ i (h : i < ids.length), hi ≤ i → short < ids[i]) →
      ∃ r, lookupId osz t short fuel lo hi = .ok r ∧ r.2 ≤ ids.length ∧ (∀ i (h : i < ids.length), i < r.2 → ids[i] < short) ∧
        (∀ i (h : i < ids.length), r.2 ≤ i → short ≤ ids[i]) ∧ (r.1 = true → ids[r.2]? = some short) := by
  have hpw := List.pairwise_iff_getElem.mp hsort
  induction fuel with
  | zero => intro lo hi h1 h2 hf; omega
  | succ fuel ih =>
    intro lo hi h1 h2 hf hlo hhi
    rw [lookupId]
    by_cases h : lo < hi
    · rw [if_pos h]
      dsimp only
      have hm : (lo + hi) / 2 < ids.length := by omega
      rw [ht.get _ hm]
      obtain ⟨c, hc, hcl, hc0, hcg⟩ := Oid.memcmp_spec osz ids[(lo + hi) / 2] short (ht.size _ (List.getElem_mem hm)) hs
      show ∃ r, (Oid.cmp osz ids[(lo + hi) / 2] short >>= _) = _ ∧ _
      rw [show Oid.cmp osz ids[(lo + hi) / 2] short = .ok c from hc]
      show ∃ r, (if c = 0 then _ else _) = _ ∧ _
      by_cases h0 : c = 0
      · rw [if_pos h0]
        have he := hc0.mp h0
        refine ⟨_, rfl, by dsimp only; omega, fun i hi' hlt => ?_, fun i hi' hle => ?_, fun _ => ?_⟩
        · rw [← he]; exact hpw i _ hi' hm hlt
        · dsimp only at hle
          rw [← he]
          rcases Nat.lt_or_eq_of_le hle with hl | hl
          · exact le_of_lt (hpw _ i hm hi' hl)
          · simp only [hl]; exact le_rfl
        · rw [List.getElem?_eq_getElem hm, he]
      rw [if_neg h0]
      by_cases hp : c > 0
      · rw [if_pos hp]
        have hgt := hcg.mp hp
        refine ih lo ((lo + hi) / 2) (by omega) (by omega) (by omega) hlo (fun i hi' hle => ?_)
        rcases Nat.lt_or_eq_of_le hle with hl | hl
        · exact lt_trans hgt (hpw _ i hm hi' hl)
        · simp only [← hl]; exact hgt
      · rw [if_neg hp]
        have hlt := hcl.mp (by omega)
        refine ih ((lo + hi) / 2 + 1) hi (by omega) h2 (by omega) (fun i hi' hle => ?_) hhi
        rcases Nat.lt_or_eq_of_le (Nat.le_of_lt_succ hle) with hl | hl
        · exact lt_trans (hpw i _ hi' hm hl) hlt
        · simp only [hl]; exact hlt
    · rw [if_neg h]
      have : lo = hi := by omega
      subst this
      exact ⟨_, rfl, h2, hlo, fun i hi' hle => le_of_lt (hhi i hi' hle), by simp⟩

theorem ncmp_spec {osz : Nat} {a b : Bytes} (ha : a.length = osz) (hb : b.length = osz) (n : Nat) :
    ∃ c, Oid.ncmp osz a b n = .ok c ∧ (c = 0 ↔ SamePrefix n a b) := by
  have := Oid.C03_ncmp a b (by rw [ha, hb]) n
  rw [ha] at this
  refine ⟨_, this, ?_⟩
  unfold SamePrefix
  split
  · simp_all
  · simp_all

/-- what `find` does, with the three decisions named -/
theorem find_eq {osz : Nat} {t : Table} {ids : List Bytes} (ht : TableOK osz t ids) {short : Bytes} (hs : short.length = osz) {lo hi : Nat} (len : Nat)
    {r : Bool × Nat} (hr : lookupId osz t short (hi - lo + 1) lo hi = .ok r) (hf : r.1 = true → ids[r.2]? = some short) :
    find osz t ids.length lo hi short len =
      if ∃ h : r.2 < ids.length, SamePrefix len short ids[r.2] then
        (if len ≠ osz * 2 ∧ ∃ h : r.2 + 1 < ids.length, SamePrefix len short ids[r.2 + 1] then .err EAMBIGUOUS
         else .ok (r.2, ids.getD r.2 []))
      else .err ENOTFOUND := by
  unfold find
  rw [hr]
  show ((if r.1 = true then Res.ok true else if r.2 < ids.length then _ else _) >>= _) = _
  have hfound : (if r.1 = true then Res.ok true
      else if r.2 < ids.length then Table.get osz t r.2 >>= fun cur => Oid.ncmp osz short cur len >>= fun c => .ok (decide (c = 0))
      else .ok false) = .ok (decide (∃ h : r.2 < ids.length, SamePrefix len short ids[r.2])) := by
    by_cases h1 : r.1 = true
    · rw [if_pos h1]
      obtain ⟨h2, h3⟩ := List.getElem?_eq_some_iff.mp (hf h1)
      rw [decide_eq_true]
      exact ⟨h2, by rw [h3]; rfl⟩
    · rw [if_neg h1]
      by_cases h2 : r.2 < ids.length
      · rw [if_pos h2, ht.get _ h2]
        obtain ⟨c, hc, hc0⟩ := ncmp_spec hs (ht.size _ (List.getElem_mem h2)) len
        show (Oid.ncmp osz short ids[r.2] len >>= fun c => Res.ok (decide (c = 0))) = _
        rw [hc]
        show Res.ok (decide (c = 0)) = _
        congr 1
        rw [decide_eq_decide, hc0]
        exact ⟨fun h => ⟨h2, h⟩, fun h => h.2⟩
      · rw [if_neg h2, decide_eq_false]
        exact fun h => h2 h.1
  rw [hfound]
  by_cases hF : ∃ h : r.2 < ids.length, SamePrefix len short ids[r.2]
  · rw [decide_eq_true hF]
    rw [if_pos hF]
    obtain ⟨h2, h3⟩ := hF
    have hb : ∀ (d : Bool) (f : Bool → Res (Nat × Bytes)), (Res.ok d >>= f) = f d := fun _ _ => rfl
    have hlast : (Table.get osz t r.2 >>= fun cur => Res.ok (r.2, cur)) = .ok (r.2, ids.getD r.2 []) := by
      rw [ht.get _ h2, List.getD_eq_getElem?_getD, List.getElem?_eq_getElem h2]
      rfl
    rw [hb]
    have htwo : (if true = true ∧ len ≠ osz * 2 ∧ r.2 + 1 < ids.length then
        Table.get osz t (r.2 + 1) >>= fun next => Oid.ncmp osz short next len >>= fun c => .ok (decide (c = 0)) else .ok false) =
        Res.ok (decide (len ≠ osz * 2 ∧ ∃ h : r.2 + 1 < ids.length, SamePrefix len short ids[r.2 + 1])) := by
      by_cases hA : len ≠ osz * 2 ∧ r.2 + 1 < ids.length
      · rw [if_pos ⟨rfl, hA⟩, ht.get _ hA.2]
        obtain ⟨c, hc, hc0⟩ := ncmp_spec hs (ht.size _ (List.getElem_mem hA.2)) len
        show (Oid.ncmp osz short ids[r.2 + 1] len >>= fun c => Res.ok (decide (c = 0))) = _
        rw [hc]
        show Res.ok (decide (c = 0)) = _
        congr 1
        rw [decide_eq_decide, hc0]
        exact ⟨fun h => ⟨hA.1, hA.2, h⟩, fun h => h.2.2⟩
      · rw [if_neg (fun h => hA h.2), decide_eq_false]
        exact fun h => hA ⟨h.1, h.2.1⟩
    rw [htwo, hb, if_neg (by simp)]
    simp only [decide_eq_true_eq]
    rw [hlast]
  · rw [decide_eq_false hF, if_neg hF]
    rfl

/-- **The search is right**: for a table of ids in order and a range that has all the ids that begin with the abbreviation's first byte. -/
theorem find_right {osz : Nat} {t : Table} {ids : List Bytes} (ht : TableOK osz t ids) (hsort : ids.Pairwise (· < ·)) {short : Bytes}
    (hs : short.length = osz) {lo hi len : Nat} (hp : Padded len short) (h1 : lo ≤ hi) (h2 : hi ≤ ids.length)
    (hlo : ∀ i (h : i < ids.length), i < lo → ids[i] < short) (hhi : ∀ i (h : i < ids.length), hi ≤ i → short < ids[i]) :
    (∃ i, ∃ h : i < ids.length, find osz t ids.length lo hi short len = .ok (i, ids[i]) ∧ SamePrefix len short ids[i] ∧
      ∀ j (hj : j < ids.length), SamePrefix len short ids[j] → j = i) ∨
    (find osz t ids.length lo hi short len = .err ENOTFOUND ∧ ∀ id ∈ ids, ¬ SamePrefix len short id) ∨
    (find osz t ids.length lo hi short len = .err EAMBIGUOUS ∧ ∃ i j, ∃ hi : i < ids.length, ∃ hj : j < ids.length, i < j ∧
      SamePrefix len short ids[i] ∧ SamePrefix len short ids[j]) := by
  have hpw := List.pairwise_iff_getElem.mp hsort
  obtain ⟨r, hr, hr1, hr2, hr3, hr4⟩ := lookup_pos ht hsort hs (hi - lo + 1) lo hi h1 h2 (by omega) hlo hhi
  have hsz : ∀ i (h : i < ids.length), short.length = ids[i].length := fun i h => by rw [hs, ht.size _ (List.getElem_mem h)]
  have hmono : ∀ i j (hi : i < ids.length) (hj : j < ids.length), i ≤ j → ids[i] ≤ ids[j] := by
    intro i j hi hj hij
    rcases Nat.lt_or_eq_of_le hij with h | h
    · exact le_of_lt (hpw i j hi hj h)
    · subst h; exact le_rfl
  -- an id with the prefix is at or after the position
  have hafter : ∀ j (hj : j < ids.length), SamePrefix len short ids[j] → r.2 ≤ j := by
    intro j hj h
    refine Nat.not_lt.mp fun hlt => ?_
    exact lt_irrefl (lt_of_lt_of_le (hr2 j hj hlt) (padded_le (hsz j hj) hp h))
  rw [find_eq ht hs len hr hr4]
  by_cases hF : ∃ h : r.2 < ids.length, SamePrefix len short ids[r.2]
  · rw [if_pos hF]
    obtain ⟨g1, g2⟩ := hF
    by_cases hA : len ≠ osz * 2 ∧ ∃ h : r.2 + 1 < ids.length, SamePrefix len short ids[r.2 + 1]
    · rw [if_pos hA]
      obtain ⟨_, g3, g4⟩ := hA
      exact .inr (.inr ⟨rfl, r.2, r.2 + 1, g1, g3, by omega, g2, g4⟩)
    · rw [if_neg hA]
      refine .inl ⟨r.2, g1, ?_, g2, fun j hj h => ?_⟩
      · rw [List.getD_eq_getElem?_getD, List.getElem?_eq_getElem g1]; rfl
      · have h3 := hafter j hj h
        rcases Nat.lt_or_eq_of_le h3 with h4 | h4
        · exfalso
          by_cases hlen : len = osz * 2
          · have e1 := (samePrefix_full (hsz _ g1) (by rw [← hsz _ g1, hs]; omega)).mp g2
            have e2 := (samePrefix_full (hsz _ hj) (by rw [← hsz _ hj, hs]; omega)).mp h
            have := hpw r.2 j g1 hj h4
            rw [← e1, ← e2] at this
            exact lt_irrefl this
          · have g5 : r.2 + 1 < ids.length := by omega
            exact hA ⟨hlen, g5, samePrefix_between (hsz _ g5) (hsz _ hj) (hr3 _ g5 (by omega)) (hmono _ _ g5 hj (by omega)) h⟩
        · exact h4.symm
  · rw [if_neg hF]
    refine .inr (.inl ⟨rfl, fun id hid h => ?_⟩)
    obtain ⟨j, hj, rfl⟩ := List.getElem_of_mem hid
    have h3 := hafter j hj h
    have g1 : r.2 < ids.length := by omega
    exact hF ⟨g1, samePrefix_between (hsz _ g1) (hsz _ hj) (hr3 _ g1 (Nat.le_refl _)) (hmono _ _ g1 hj h3) h⟩

end Verif.PackIdx
