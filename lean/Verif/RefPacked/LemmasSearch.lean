import Verif.RefPacked.Lemmas
import Mathlib.Tactic.Tauto
namespace Verif.RefPacked
open Verif.RefPacked.Spec Verif.Oid.Spec Verif.Oid

/-! ## The shape of a record -/

theorem digit_props : ∀ n : UInt8, n < 16 → digit n ≠ 10 ∧ digit n ≠ 94 ∧ digit n ≠ 35 ∧ digit n ≠ 0 := by decide +kernel

theorem hex_mem (id : Bytes) : ∀ x ∈ hex id, x ≠ 10 ∧ x ≠ 94 ∧ x ≠ 35 ∧ x ≠ 0 := by
  intro x hx
  obtain ⟨n, hn, rfl⟩ := List.mem_map.mp hx
  exact digit_props n (nibbles_lt id n hn)

/-- the first line of a record, without its newline -/
def line1 (r : Rec) : Bytes := hex r.oid ++ c!" " :: r.name

/-- the second line, with its newline -/
def line2 (r : Rec) : Bytes :=
  match r.peel with
  | some p => c!"^" :: hex p ++ [c!"\n"]
  | none => []

theorem text_eq (r : Rec) : r.text = line1 r ++ c!"\n" :: line2 r := by
  unfold Rec.text line1 line2
  cases r.peel <;> simp

theorem line1_nl {size : Nat} {r : Rec} (h : r.Valid size) : (10 : UInt8) ∉ line1 r := by
  unfold line1
  intro hm
  rcases List.mem_append.mp hm with hm | hm
  · exact (hex_mem _ _ hm).1 rfl
  · rcases List.mem_cons.mp hm with hm | hm
    · cases hm
    · exact h.name_nl hm

theorem line1_length {size : Nat} {r : Rec} (h : r.Valid size) : (line1 r).length = 2 * size + 1 + r.name.length := by
  simp [line1, h.oid_len]; omega

theorem line1_head {size : Nat} (hs : 0 < size) {r : Rec} (h : r.Valid size) :
    ∃ x t, line1 r = x :: t ∧ x ≠ 94 ∧ x ≠ 35 ∧ x ≠ 10 ∧ x ≠ 0 := by
  unfold line1
  cases hh : hex r.oid with
  | nil =>
    have := length_hex r.oid
    rw [hh, h.oid_len] at this
    simp at this; omega
  | cons x t =>
    have := hex_mem r.oid x (by rw [hh]; simp)
    exact ⟨x, t ++ c!" " :: r.name, rfl, this.2.1, this.2.2.1, this.1, this.2.2.2⟩

theorem text_head {size : Nat} (hs : 0 < size) {r : Rec} (h : r.Valid size) : ∃ x t, r.text = x :: t ∧ x ≠ 94 ∧ x ≠ 35 := by
  obtain ⟨x, t, e, h1, h2, _⟩ := line1_head hs h
  exact ⟨x, t ++ c!"\n" :: line2 r, by rw [text_eq, e]; rfl, h1, h2⟩

theorem text_pos (r : Rec) : 0 < r.text.length := by rw [text_eq]; simp; omega

theorem text_last (r : Rec) : ∃ t, r.text = t ++ [c!"\n"] := by
  rw [text_eq]
  unfold line2
  cases r.peel with
  | none => exact ⟨line1 r, rfl⟩
  | some p => exact ⟨line1 r ++ c!"\n" :: c!"^" :: hex p, by simp⟩

def flat (rs : List Rec) : Bytes := rs.flatMap Rec.text

theorem flat_last (rs : List Rec) : flat rs = [] ∨ ∃ t, flat rs = t ++ [c!"\n"] := by
  induction rs using list_snoc_induction with
  | hnil => left; rfl
  | hsnoc l a _ =>
    right
    obtain ⟨t, ht⟩ := text_last a
    exact ⟨flat l ++ t, by simp [flat, ht]⟩

/-- find the record that contains a given byte of a sequence of records -/
theorem locate (rs : List Rec) (k : Nat) (h : k < (flat rs).length) :
    ∃ r1 r r2 j, rs = r1 ++ r :: r2 ∧ k = (flat r1).length + j ∧ j < r.text.length := by
  induction rs generalizing k with
  | nil => simp [flat] at h
  | cons a rs ih =>
    by_cases hk : k < a.text.length
    · exact ⟨[], a, rs, k, rfl, by simp [flat], hk⟩
    · have h' : k - a.text.length < (flat rs).length := by
        simp only [flat, List.flatMap_cons, List.length_append] at h ⊢; omega
      obtain ⟨r1, r, r2, j, e, hj, hlt⟩ := ih _ h'
      refine ⟨a :: r1, r, r2, j, by simp [e], ?_, hlt⟩
      simp only [flat, List.flatMap_cons, List.length_append] at hj ⊢; omega

/-! ## start_of_record / end_of_record -/

/-- the part of `start_of_record` reached from inside the first line -/
theorem startOfRecord_line1 {size : Nat} (hs : 0 < size) (b : Bytes) (left fuel : Nat) (r1 : List Rec) (r : Rec) (hr : r.Valid size) (R : Bytes)
    (hb : b.drop left = flat r1 ++ line1 r ++ R) (j : Nat) (hj : j ≤ (line1 r).length) :
    startOfRecord b left (fuel + 1) (left + (flat r1).length + j) = .ok (left + (flat r1).length) := by
  unfold startOfRecord
  have hsub : left + (flat r1).length + j - left = (flat r1).length + j := by omega
  rw [hsub]
  have hnl : (10 : UInt8) ∉ (line1 r).take j := fun h => line1_nl hr (List.mem_of_mem_take h)
  have hlen : ((line1 r).take j).length = j := by simp; omega
  rcases flat_last r1 with he | ⟨t, he⟩
  · rw [he]
    have : memrchr b c!"\n" left ((line1 r).take j).length = .ok none := by
      refine memrchr_none b _ left _ ((line1 r).drop j ++ R) ?_ hnl
      rw [hb, he, ← List.append_assoc, List.take_append_drop]; rfl
    rw [hlen] at this
    simp only [List.length_nil, Nat.zero_add, this, Res.bind_ok, Nat.add_zero]
  · rw [he]
    have : memrchr b c!"\n" left (t.length + 1 + ((line1 r).take j).length) = .ok (some (left + t.length)) := by
      refine memrchr_found b _ left t _ ((line1 r).drop j ++ R) ?_ hnl
      rw [hb, he]
      rw [show t ++ c!"\n" :: (line1 r).take j ++ ((line1 r).drop j ++ R) = t ++ c!"\n" :: ((line1 r).take j ++ (line1 r).drop j) ++ R by simp only [List.append_assoc, List.cons_append],
        List.take_append_drop]
      simp only [List.append_assoc, List.cons_append, List.nil_append, List.singleton_append]
    rw [hlen] at this
    simp only [List.length_append, List.length_singleton, this, Res.bind_ok]
    obtain ⟨x, t', hx, hc, _⟩ := line1_head hs hr
    have hx1 : b[left + t.length + 1]? = some x := by
      have : (b.drop left)[t.length + 1]? = some x := by
        rw [hb, he, hx]
        simp
      rw [List.getElem?_drop] at this
      rw [← this]; congr 1
    rw [hx1]
    simp only
    rw [if_neg (by intro h; exact hc h.1)]
    simp; omega

theorem startOfRecord_ok {size : Nat} (hs : 0 < size) (b : Bytes) (left fuel : Nat) (r1 : List Rec) (r : Rec) (hr : r.Valid size) (R : Bytes)
    (hb : b.drop left = flat r1 ++ r.text ++ R) (j : Nat) (hj : j < r.text.length) :
    startOfRecord b left (fuel + 2) (left + (flat r1).length + j) = .ok (left + (flat r1).length) := by
  have hb1 : b.drop left = flat r1 ++ line1 r ++ (c!"\n" :: line2 r ++ R) := by rw [hb, text_eq]; simp
  by_cases hj1 : j ≤ (line1 r).length
  · exact startOfRecord_line1 hs b left (fuel + 1) r1 r hr _ hb1 j hj1
  · -- inside the peeled line
    have hlt : j - ((line1 r).length + 1) < (line2 r).length := by
      rw [text_eq] at hj; simp at hj; omega
    unfold line2 at hlt
    cases hp : r.peel with
    | none => rw [hp] at hlt; simp at hlt
    | some p =>
      have hl2 : line2 r = (c!"^" :: hex p) ++ [c!"\n"] := by unfold line2; rw [hp]
      generalize hk : j - ((line1 r).length + 1) = k at hlt
      have hk' : k ≤ (c!"^" :: hex p).length := by rw [hp] at hlt; simp at hlt ⊢; omega
      rw [startOfRecord]
      have hsub : left + (flat r1).length + j - left = (flat r1 ++ line1 r).length + 1 + ((c!"^" :: hex p).take k).length := by
        rw [List.length_take_of_le hk']; simp; omega
      have hV : (10 : UInt8) ∉ (c!"^" :: hex p).take k := by
        intro h
        rcases List.mem_cons.mp (List.mem_of_mem_take h) with h | h
        · cases h
        · exact (hex_mem _ _ h).1 rfl
      have := memrchr_found b c!"\n" left (flat r1 ++ line1 r) ((c!"^" :: hex p).take k) ((c!"^" :: hex p).drop k ++ [c!"\n"] ++ R) (by
        rw [hb1, hl2]
        rw [show flat r1 ++ line1 r ++ c!"\n" :: (c!"^" :: hex p).take k ++ ((c!"^" :: hex p).drop k ++ [c!"\n"] ++ R)
          = flat r1 ++ line1 r ++ c!"\n" :: ((c!"^" :: hex p).take k ++ (c!"^" :: hex p).drop k) ++ ([c!"\n"] ++ R) by simp only [List.append_assoc, List.cons_append],
          List.take_append_drop]
        simp) hV
      rw [hsub, this]
      simp only [Res.bind_ok]
      have hx1 : b[left + (flat r1 ++ line1 r).length + 1]? = some c!"^" := by
        have : (b.drop left)[(flat r1 ++ line1 r).length + 1]? = some c!"^" := by
          rw [hb1, hl2, List.getElem?_append_right (by omega)]
          simp
        rw [List.getElem?_drop] at this
        rw [← this]; congr 1
      rw [hx1]
      simp only
      have hl1 : 0 < (line1 r).length := by rw [line1_length hr]; omega
      rw [if_pos ⟨trivial, by simp; omega⟩]
      have e : left + (flat r1 ++ line1 r).length - 1 = left + (flat r1).length + ((line1 r).length - 1) := by simp; omega
      rw [e]
      exact startOfRecord_line1 hs b left fuel r1 r hr _ hb1 _ (by omega)

theorem endOfRecord_stop (b : Bytes) (stop fuel p : Nat) (U R : Bytes) (hb : b.drop p = U ++ c!"\n" :: R) (hU : (10 : UInt8) ∉ U)
    (hstop : p + U.length < stop) (hnext : p + U.length + 1 < stop → ∃ y, R.head? = some y ∧ y ≠ 94) :
    endOfRecord b stop (fuel + 1) p = .ok (p + U.length + 1) := by
  unfold endOfRecord
  rw [memchr_found b _ U R p (stop - p) hb hU (by omega)]
  simp only [Res.bind_ok]
  split
  · rename_i h
    obtain ⟨y, hy, hy'⟩ := hnext h
    have hx : b[p + U.length + 1]? = some y := by
      have : (b.drop p)[U.length + 1]? = some y := by
        rw [hb, List.getElem?_append_right (by omega)]
        cases R with
        | nil => cases hy
        | cons z R => simp at hy; simp [hy]
      rw [List.getElem?_drop] at this
      rw [← this]; congr 1
    rw [hx]
    simp only
    rw [if_neg hy']
  · rfl

theorem head_after {size : Nat} (hs : 0 < size) (r2 : List Rec) (h2 : ∀ r ∈ r2, r.Valid size) (R : Bytes) (hlen : 0 < (flat r2).length) :
    ∃ y, (flat r2 ++ R).head? = some y ∧ y ≠ 94 := by
  cases r2 with
  | nil => simp [flat] at hlen
  | cons a r2 =>
    obtain ⟨x, t, e, hx, _⟩ := text_head hs (h2 a (by simp))
    exact ⟨x, by simp [flat, e], hx⟩

theorem endOfRecord_ok {size : Nat} (hs : 0 < size) (b : Bytes) (base fuel : Nat) (r : Rec) (hr : r.Valid size) (r2 : List Rec)
    (h2 : ∀ r ∈ r2, r.Valid size) (R : Bytes) (hb : b.drop base = r.text ++ (flat r2 ++ R)) (j : Nat) (hj : j < r.text.length) :
    endOfRecord b (base + r.text.length + (flat r2).length) (fuel + 2) (base + j) = .ok (base + r.text.length) := by
  have hjd : b.drop (base + j) = r.text.drop j ++ (flat r2 ++ R) := by
    rw [← List.drop_drop, hb, List.drop_append_of_le_length (by omega)]
  by_cases hj1 : j ≤ (line1 r).length
  · have hd : r.text.drop j = (line1 r).drop j ++ c!"\n" :: line2 r := by
      rw [text_eq, List.drop_append_of_le_length hj1]
    have hU : (10 : UInt8) ∉ (line1 r).drop j := fun h => line1_nl hr (List.mem_of_mem_drop h)
    have hUl : ((line1 r).drop j).length = (line1 r).length - j := by simp
    cases hp : r.peel with
    | none =>
      have hl2 : line2 r = [] := by unfold line2; rw [hp]
      have htl : r.text.length = (line1 r).length + 1 := by rw [text_eq, hl2]; simp
      have := endOfRecord_stop b (base + r.text.length + (flat r2).length) (fuel + 1) (base + j) ((line1 r).drop j) (flat r2 ++ R)
        (by rw [hjd, hd, hl2]; simp) hU (by omega) (by intro hh; exact head_after hs r2 h2 R (by omega))
      rw [this, hUl, htl]
      congr 1; omega
    | some p =>
      have hl2 : line2 r = (c!"^" :: hex p) ++ [c!"\n"] := by unfold line2; rw [hp]
      have htl : r.text.length = (line1 r).length + 1 + (1 + (hex p).length + 1) := by rw [text_eq, hl2]; simp; omega
      have hjd' : b.drop (base + j) = (line1 r).drop j ++ c!"\n" :: (c!"^" :: (hex p ++ c!"\n" :: (flat r2 ++ R))) := by
        rw [hjd, hd, hl2]; simp
      rw [endOfRecord]
      rw [memchr_found b _ ((line1 r).drop j) _ (base + j) _ hjd' hU (by omega)]
      simp only [Res.bind_ok]
      rw [if_pos (by omega)]
      have hx : b[base + j + ((line1 r).drop j).length + 1]? = some c!"^" := by
        have : (b.drop (base + j))[((line1 r).drop j).length + 1]? = some c!"^" := by
          rw [hjd', List.getElem?_append_right (by omega)]; simp
        rw [List.getElem?_drop] at this
        rw [← this]; congr 1
      rw [hx]
      simp only [if_true]
      have hb3 : b.drop (base + j + ((line1 r).drop j).length + 2) = hex p ++ c!"\n" :: (flat r2 ++ R) := by
        rw [show base + j + ((line1 r).drop j).length + 2 = (base + j) + (((line1 r).drop j).length + 2) by omega, ← List.drop_drop, hjd']
        rw [List.drop_append, List.drop_of_length_le (by omega)]
        simp
      have := endOfRecord_stop b (base + r.text.length + (flat r2).length) fuel (base + j + ((line1 r).drop j).length + 2) (hex p) (flat r2 ++ R)
        hb3 (fun h => (hex_mem _ _ h).1 rfl) (by omega) (by intro hh; exact head_after hs r2 h2 R (by omega))
      rw [this, hUl, htl]
      congr 1; omega
  · have hlt : j - ((line1 r).length + 1) < (line2 r).length := by
      rw [text_eq] at hj; simp at hj; omega
    cases hp : r.peel with
    | none => unfold line2 at hlt; rw [hp] at hlt; simp at hlt
    | some p =>
      have hl2 : line2 r = (c!"^" :: hex p) ++ [c!"\n"] := by unfold line2; rw [hp]
      have htl : r.text.length = (line1 r).length + 1 + (1 + (hex p).length + 1) := by rw [text_eq, hl2]; simp; omega
      generalize hk : j - ((line1 r).length + 1) = k at hlt
      have hk' : k ≤ (c!"^" :: hex p).length := by rw [hl2] at hlt; simp at hlt ⊢; omega
      have hd : r.text.drop j = (c!"^" :: hex p).drop k ++ [c!"\n"] := by
        rw [text_eq, hl2, List.drop_append, List.drop_of_length_le (by omega)]
        rw [show j - (line1 r).length = k + 1 by omega, List.drop_succ_cons, List.drop_append_of_le_length hk']; rfl
      have := endOfRecord_stop b (base + r.text.length + (flat r2).length) (fuel + 1) (base + j) ((c!"^" :: hex p).drop k) (flat r2 ++ R)
        (by rw [hjd, hd]; simp) (by
          intro h
          rcases List.mem_cons.mp (List.mem_of_mem_drop h) with h | h
          · cases h
          · exact (hex_mem _ _ h).1 rfl) (by simp only [List.length_drop, List.length_cons] at hk' ⊢; omega)
          (by intro hh; exact head_after hs r2 h2 R (by simp only [List.length_drop, List.length_cons] at hh hk'; omega))
      rw [this, htl]
      simp only [List.length_drop, List.length_cons] at hk' ⊢
      congr 1; omega

/-! ## Comparing and reading a record -/

theorem bcmp_min (a n : Bytes) :
    (if bcmp (a.take (min n.length a.length)) (n.take (min n.length a.length)) = 0 ∧ a.length ≠ n.length then
      (if a.length > n.length then (1 : Int) else -1)
     else bcmp (a.take (min n.length a.length)) (n.take (min n.length a.length))) = bcmp a n := by
  induction a generalizing n with
  | nil => cases n <;> simp [bcmp]
  | cons x a ih =>
    cases n with
    | nil => simp [bcmp]
    | cons y n =>
      have := ih n
      simp only [List.length_cons, Nat.succ_min_succ, List.take_succ_cons, bcmp]
      by_cases h1 : x < y
      · simp [h1]
      · by_cases h2 : y < x
        · simp [h1, h2]
        · simp only [h1, h2, if_false]
          rw [← this]
          simp only [ne_eq, Nat.add_right_cancel_iff, gt_iff_lt, Nat.add_lt_add_iff_right]

theorem cmpRecord_ok {size : Nat} (b : Bytes) (base : Nat) (r : Rec) (hr : r.Valid size) (R : Bytes) (hb : b.drop base = r.text ++ R)
    (name : Bytes) : cmpRecord size b base (b.length - base) name = .ok (bcmp r.name name) := by
  have hl : b.length - base = r.text.length + R.length := by
    have := congrArg List.length hb; simpa using this
  have ht : r.text = hex r.oid ++ c!" " :: (r.name ++ c!"\n" :: line2 r) := by rw [text_eq, line1]; simp
  have hlen : r.text.length = 2 * size + 1 + r.name.length + 1 + (line2 r).length := by
    rw [ht]; simp [hr.oid_len]; omega
  have hn : 0 < r.name.length := List.length_pos_iff.mpr hr.name_ne
  unfold cmpRecord
  rw [if_neg (by omega)]
  simp only
  have hb2 : b.drop (base + (2 * size + 1)) = r.name ++ c!"\n" :: (line2 r ++ R) := by
    rw [← List.drop_drop, hb, ht]
    rw [List.append_assoc, List.drop_append, List.drop_of_length_le (by simp [hr.oid_len])]
    simp [hr.oid_len]
  rw [memchr_found b _ r.name _ _ _ hb2 hr.name_nl (by omega)]
  have e : base + (2 * size + 1) + r.name.length - (base + (2 * size + 1)) = r.name.length := by omega
  simp only [Res.bind_ok, e]
  have hsl : slice b (base + (2 * size + 1)) (min name.length r.name.length) = .ok (r.name.take (min name.length r.name.length)) := by
    unfold slice
    rw [if_pos (by omega), hb2, List.take_append_of_le_length (by omega)]
  rw [hsl]
  simp only [Res.bind_ok]
  rw [← bcmp_min r.name name]
  split <;> rfl

theorem fromPrefix_hex {size : Nat} (hs : 0 < size) (id : Bytes) (h : id.length = size) (R : Bytes) :
    Oid.fromPrefix size (hex id ++ R) (2 * size) = .ok id := by
  obtain ⟨t, h1, h2, _⟩ := Oid.C02_roundtrip id (by intro e; subst e; simp at h; omega) R
  rw [Oid.C02_fmt] at h1
  cases h1
  rw [h] at h2; exact h2

theorem readRecord_ok {size : Nat} (hs : 0 < size) (b : Bytes) (base : Nat) (r : Rec) (hr : r.Valid size) (r2 : List Rec)
    (h2 : ∀ r ∈ r2, r.Valid size) (hb : b.drop base = r.text ++ flat r2) :
    readRecord size b base = .ok (r.oid, r.peel) := by
  have hl : b.length - base = r.text.length + (flat r2).length := by
    have := congrArg List.length hb; simpa using this
  have ht : r.text = hex r.oid ++ c!" " :: (r.name ++ c!"\n" :: line2 r) := by rw [text_eq, line1]; simp
  have hlen : r.text.length = 2 * size + 1 + r.name.length + 1 + (line2 r).length := by
    rw [ht]; simp [hr.oid_len]; omega
  unfold readRecord
  rw [if_neg (by omega), hb, ht, List.append_assoc, fromPrefix_hex hs _ hr.oid_len]
  simp only [Res.bind_ok]
  have hb2 : b.drop (base + (2 * size + 1)) = r.name ++ c!"\n" :: (line2 r ++ flat r2) := by
    rw [← List.drop_drop, hb, ht]
    rw [List.append_assoc, List.drop_append, List.drop_of_length_le (by simp [hr.oid_len])]
    simp [hr.oid_len]
  rw [memchr_found b _ r.name _ _ _ hb2 hr.name_nl (by omega)]
  simp only [Res.bind_ok]
  have hb3 : b.drop (base + (2 * size + 1) + r.name.length + 1) = line2 r ++ flat r2 := by
    rw [show base + (2 * size + 1) + r.name.length + 1 = base + (2 * size + 1) + (r.name.length + 1) by omega, ← List.drop_drop, hb2]
    rw [List.drop_append, List.drop_of_length_le (by omega)]; simp
  cases hp : r.peel with
  | none =>
    have hl2 : line2 r = [] := by unfold line2; rw [hp]
    rw [hl2] at hb3 hlen
    split
    · rename_i hlt
      obtain ⟨y, hy, hy'⟩ := head_after hs r2 h2 [] (by simp only [List.length_nil] at hlen; omega)
      have hx : b[base + (2 * size + 1) + r.name.length + 1]? = some y := by
        have : (b.drop (base + (2 * size + 1) + r.name.length + 1))[0]? = some y := by
          rw [hb3, ← List.head?_eq_getElem?]; simpa using hy
        simpa using this
      rw [hx]
      simp only
      rw [if_neg hy']
    · rfl
  | some p =>
    have hl2 : line2 r = c!"^" :: (hex p ++ [c!"\n"]) := by unfold line2; rw [hp]; rfl
    have hpl := hr.peel_len p hp
    have hl2l : (line2 r).length = 2 * size + 2 := by rw [hl2]; simp [hpl]
    rw [if_pos (by omega)]
    have hx : b[base + (2 * size + 1) + r.name.length + 1]? = some c!"^" := by
      have : (b.drop (base + (2 * size + 1) + r.name.length + 1))[0]? = some c!"^" := by
        rw [hb3, hl2]; rfl
      simpa using this
    rw [hx]
    simp only [if_true]
    rw [if_neg (by omega)]
    have hb4 : b.drop (base + (2 * size + 1) + r.name.length + 2) = hex p ++ (c!"\n" :: flat r2) := by
      rw [show base + (2 * size + 1) + r.name.length + 2 = base + (2 * size + 1) + r.name.length + 1 + 1 by omega, ← List.drop_drop, hb3, hl2]
      simp
    rw [hb4, fromPrefix_hex hs _ hpl]
    rfl

/-! ## The search -/

theorem searchLoop_ok {size : Nat} (hs : 0 < size) (b H name : Bytes) (fuel : Nat) :
    ∀ (ra rm rb : List Rec), b = H ++ flat (ra ++ rm ++ rb) → (∀ r ∈ ra ++ rm ++ rb, r.Valid size) →
    (∀ r ∈ ra, r.name < name) → (∀ r ∈ rb, name < r.name) → rm.Pairwise (fun a b => a.name < b.name) →
    (flat rm).length < fuel →
    searchLoop size b name fuel (H.length + (flat ra).length) (H.length + (flat ra).length + (flat rm).length) =
      match (ra ++ rm ++ rb).find? (fun r => r.name = name) with
      | some r => .ok (r.oid, r.peel)
      | none => .err ENOTFOUND := by
  induction fuel with
  | zero => intro ra rm rb _ _ _ _ _ h; omega
  | succ fuel ih =>
    intro ra rm rb hb hv hra hrb hsort hfuel
    unfold searchLoop
    split
    · rename_i hlt
      have hfl : ∀ x y : List Rec, flat (x ++ y) = flat x ++ flat y := fun x y => by simp [flat]
      have hcons : ∀ (x : Rec) y, flat (x :: y) = x.text ++ flat y := fun x y => by simp [flat]
      obtain ⟨r1, r, r2, j, hrm, hk, hj⟩ := locate rm ((flat rm).length / 2) (by omega)
      have hmid : H.length + (flat ra).length + (H.length + (flat ra).length + (flat rm).length - (H.length + (flat ra).length)) / 2
          = H.length + (flat ra).length + (flat r1).length + j := by
        rw [show H.length + (flat ra).length + (flat rm).length - (H.length + (flat ra).length) = (flat rm).length by omega, hk]; omega
      simp only
      rw [hmid]
      subst hrm
      have hrv : r.Valid size := hv r (by simp)
      have hdl : b.drop (H.length + (flat ra).length) = flat r1 ++ r.text ++ (flat r2 ++ flat rb) := by
        rw [hb, ← List.length_append]
        simp only [hfl, hcons, List.append_assoc]
        rw [← List.append_assoc H, List.drop_left]
      have hdr : b.drop (H.length + (flat ra).length + (flat r1).length) = r.text ++ (flat r2 ++ flat rb) := by
        rw [← List.drop_drop, hdl, List.append_assoc, List.drop_left]
      have hbl : ∃ f, b.length + 1 = f + 2 := by
        refine ⟨b.length - 1, ?_⟩
        have : 0 < b.length := by
          rw [hb]; simp only [hfl, hcons, List.length_append] at hlt ⊢
          have := text_pos r; omega
        omega
      obtain ⟨f, hf⟩ := hbl
      rw [hf, startOfRecord_ok hs b _ f r1 r hrv _ hdl j hj]
      simp only [Res.bind_ok]
      rw [cmpRecord_ok b _ r hrv _ hdr name]
      simp only [Res.bind_ok]
      have hp := hsort
      simp only [List.pairwise_append, List.pairwise_cons, List.mem_cons] at hp
      obtain ⟨hp1, ⟨hp2, hp3⟩, hp4⟩ := hp
      split
      · rename_i hneg
        have hlt' : r.name < name := bcmp_lt.mp hneg
        have := endOfRecord_ok hs b (H.length + (flat ra).length + (flat r1).length) f r hrv r2 (fun x hx => hv x (by simp [hx])) (flat rb) hdr j hj
        have e : H.length + (flat ra).length + (flat (r1 ++ r :: r2)).length
            = H.length + (flat ra).length + (flat r1).length + r.text.length + (flat r2).length := by
          simp only [hfl, hcons, List.length_append]; omega
        rw [e, this]
        simp only [Res.bind_ok]
        have hrec := ih (ra ++ r1 ++ [r]) r2 rb (by rw [hb]; simp) (fun x hx => hv x (by simp at hx ⊢; tauto)) ?_ hrb hp3 ?_
        · have hl : (flat (ra ++ r1 ++ [r])).length = (flat ra).length + (flat r1).length + r.text.length := by
            simp [flat]; omega
          rw [hl] at hrec
          rw [show H.length + (flat ra).length + (flat r1).length + r.text.length = H.length + ((flat ra).length + (flat r1).length + r.text.length) by omega]
          rw [hrec]
          simp
        · intro x hx
          simp at hx
          rcases hx with hx | hx | hx
          · exact hra x hx
          · exact B.lt_of_lt_of_le (hp4 x hx r (.inl rfl)) (B.le_of_lt hlt')
          · rw [hx]; exact hlt'
        · have := text_pos r
          simp only [hfl, hcons, List.length_append] at hfuel; omega
      · rename_i hnn
        split
        · rename_i hpos
          have hlt' : name < r.name := by
            have := bcmp_neg r.name name
            exact bcmp_lt.mp (by omega)
          have hrec := ih ra r1 (r :: r2 ++ rb) (by rw [hb]; simp) (fun x hx => hv x (by simp at hx ⊢; tauto)) hra ?_ hp1 ?_
          · rw [hrec]; simp
          · intro x hx
            simp at hx
            rcases hx with hx | hx | hx
            · rw [hx]; exact hlt'
            · exact B.lt_of_lt_of_le hlt' (B.le_of_lt (hp2 x hx))
            · exact hrb x hx
          · have := text_pos r
            simp only [hfl, hcons, List.length_append] at hfuel; omega
        · rename_i hnp
          have heq : r.name = name := bcmp_zero.mp (by omega)
          have hrr : readRecord size b (H.length + (flat ra).length + (flat r1).length) = .ok (r.oid, r.peel) :=
            readRecord_ok hs b _ r hrv (r2 ++ rb) (fun x hx => hv x (by simp at hx ⊢; tauto)) (by rw [hdr]; simp [flat])
          rw [hrr]
          have hfind : (ra ++ (r1 ++ r :: r2) ++ rb).find? (fun r => decide (r.name = name)) = some r := by
            rw [List.append_assoc, List.find?_append, List.append_assoc, List.find?_append]
            have n1 : ra.find? (fun r => decide (r.name = name)) = none := by
              rw [List.find?_eq_none]; intro x hx; simpa using B.ne_of_lt (hra x hx)
            have n2 : r1.find? (fun r => decide (r.name = name)) = none := by
              rw [List.find?_eq_none]; intro x hx
              have := B.ne_of_lt (hp4 x hx r (.inl rfl))
              rw [heq] at this; simpa using this
            rw [n1, n2]; simp [heq]
          rw [hfind]
    · rename_i hge
      have hrm : rm = [] := by
        cases rm with
        | nil => rfl
        | cons a rm => have := text_pos a; simp only [flat, List.flatMap_cons, List.length_append] at hge; omega
      subst hrm
      have : (ra ++ [] ++ rb).find? (fun r : Rec => decide (r.name = name)) = none := by
        rw [List.find?_eq_none]
        intro x hx
        simp at hx
        rcases hx with hx | hx
        · simpa using B.ne_of_lt (hra x hx)
        · simpa using fun e => B.ne_of_lt (hrb x hx) e.symm
      rw [this]

theorem skipHeader_ok {size : Nat} (hs : 0 < size) (b : Bytes) (lines : List Bytes) (hl : ∀ l ∈ lines, (10 : UInt8) ∉ l) (recs : List Rec)
    (hv : ∀ r ∈ recs, r.Valid size) (fuel : Nat) :
    ∀ pre : Bytes, b = pre ++ (header lines ++ flat recs) → lines.length < fuel →
    skipHeader b fuel pre.length = .ok (pre.length + (header lines).length) := by
  induction lines generalizing fuel with
  | nil =>
    intro pre hb hf
    obtain ⟨fuel, rfl⟩ : ∃ f, fuel = f + 1 := ⟨fuel - 1, by omega⟩
    unfold skipHeader
    split
    · rename_i hlt
      cases recs with
      | nil => rw [hb] at hlt; simp [header, flat] at hlt
      | cons r recs =>
        obtain ⟨x, t, e, _, hx⟩ := text_head hs (hv r (by simp))
        have : b[pre.length]? = some x := by rw [hb]; simp [header, flat, e]
        rw [this]
        simp only
        rw [if_neg hx]; simp [header]
    · simp [header]
  | cons l lines ih =>
    intro pre hb hf
    obtain ⟨fuel, rfl⟩ : ∃ f, fuel = f + 1 := ⟨fuel - 1, by simp at hf; omega⟩
    have hd : b.drop pre.length = (c!"#" :: l) ++ c!"\n" :: (header lines ++ flat recs) := by
      rw [hb, List.drop_left]; simp [header]
    have hb0 : b[pre.length]? = some c!"#" := by
      have : (b.drop pre.length)[0]? = some c!"#" := by rw [hd]; rfl
      simpa using this
    have hlen : pre.length < b.length := (List.getElem?_eq_some_iff.mp hb0).1
    have hlen2 : b.length - pre.length = (c!"#" :: l).length + (1 + (header lines ++ flat recs).length) := by
      have := congrArg List.length hd; simp at this ⊢; omega
    unfold skipHeader
    rw [if_pos hlen, hb0]
    simp only [if_true]
    rw [memchr_found b _ (c!"#" :: l) _ _ _ hd (by
      intro h; rcases List.mem_cons.mp h with h | h
      · cases h
      · exact hl l (by simp) h) (by omega)]
    simp only [Res.bind_ok]
    have := ih (fun x hx => hl x (by simp [hx])) fuel (pre ++ (c!"#" :: l) ++ [c!"\n"]) (by
      rw [hb]; simp [header]) (by simp at hf; omega)
    rw [show (pre ++ (c!"#" :: l) ++ [c!"\n"]).length = pre.length + (c!"#" :: l).length + 1 by simp; omega] at this
    rw [this]
    simp [header]; omega

theorem packedLookup_ok {size : Nat} (hs : 0 < size) (lines : List Bytes) (hl : ∀ l ∈ lines, (10 : UInt8) ∉ l) (recs : List Rec)
    (hv : ∀ r ∈ recs, r.Valid size) (hsort : recs.Pairwise (fun a b => a.name < b.name)) (name : Bytes) :
    packedLookup size (file lines recs) name =
      match recs.find? (fun r => r.name = name) with
      | some r => .ok (r.oid, r.peel)
      | none => .err ENOTFOUND := by
  unfold packedLookup
  have hlen : lines.length ≤ (header lines).length := by
    induction lines with
    | nil => simp
    | cons l ls ih =>
      have := ih (fun x hx => hl x (by simp [hx]))
      simp only [header, List.flatMap_cons, List.length_append, List.length_cons] at this ⊢; omega
  have h1 := skipHeader_ok hs (file lines recs) lines hl recs hv ((file lines recs).length + 1) [] rfl
    (by simp only [file, List.length_append]; omega)
  simp only [List.length_nil, Nat.zero_add] at h1
  rw [h1]
  simp only [Res.bind_ok]
  have := searchLoop_ok hs (file lines recs) (header lines) name ((file lines recs).length + 1) [] recs [] (by simp [file, flat]) (by simpa using hv)
    (by simp) (by simp) hsort (by simp only [file, flat, List.length_append]; omega)
  simp only [List.nil_append, List.append_nil, flat, List.flatMap_nil, List.length_nil, Nat.add_zero] at this
  rw [← this]
  simp [file]

end Verif.RefPacked
