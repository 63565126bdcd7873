import Verif.Tree.LemmasOrder
namespace Verif.Tree
open Spec

/-- how the comparisons of a key lie around a position `t` in the array -/
structure Around (key : Entry → Int) (es : List Entry) (t : Nat) : Prop where
  lt : t < es.length
  at_ : ∀ e, es[t]? = some e → key e = 0
  before : ∀ j e, j < t → es[j]? = some e → 0 ≤ key e
  after : ∀ j e, t < j → es[j]? = some e → key e ≤ 0

theorem bsearch_around {key : Entry → Int} {es : List Entry} {t : Nat} (ha : Around key es t) (fuel : Nat) :
    ∀ base lim c, lim < fuel → base ≤ t → t < base + lim → base + lim ≤ es.length →
      ∃ pos, Sort.bsearchLoop key es fuel base lim c = .ok (0, pos) ∧ pos < es.length := by
  induction fuel with
  | zero => intro base lim c h; omega
  | succ fuel ih =>
    intro base lim c hf hb ht hl
    rw [Sort.bsearchLoop, if_pos (by omega)]
    have hlt : base + lim / 2 < es.length := by omega
    unfold Sort.rd
    rw [List.getElem?_eq_getElem hlt]
    simp only
    have hg := List.getElem?_eq_getElem hlt
    rcases Int.lt_trichotomy (key es[base + lim / 2]) 0 with h | h | h
    · rw [if_neg (by omega), if_neg (by omega)]
      have : t < base + lim / 2 := by
        rcases Nat.lt_trichotomy t (base + lim / 2) with h1 | h1 | h1
        · exact h1
        · subst h1; have := ha.at_ _ hg; omega
        · have := ha.before _ _ h1 hg; omega
      exact ih base (lim / 2) _ (by omega) hb this (by omega)
    · rw [if_pos h]; exact ⟨_, rfl, hlt⟩
    · rw [if_neg (by omega), if_pos h]
      have : base + lim / 2 < t := by
        rcases Nat.lt_trichotomy t (base + lim / 2) with h1 | h1 | h1
        · have := ha.after _ _ h1 hg; omega
        · subst h1; have := ha.at_ _ hg; omega
        · exact h1
      exact ih _ ((lim - 1) / 2) _ (by omega) (by omega) (by omega) (by omega)

theorem bsearchLoop_total {key : Entry → Int} {es : List Entry} (fuel : Nat) :
    ∀ base lim c, lim < fuel → base + lim ≤ es.length →
      ∃ c' pos, Sort.bsearchLoop key es fuel base lim c = .ok (c', pos) ∧ (pos < es.length ∨ (c' ≠ 0 ∨ (lim = 0 ∧ c' = c))) := by
  induction fuel with
  | zero => intro base lim c h; omega
  | succ fuel ih =>
    intro base lim c hf hl
    rw [Sort.bsearchLoop]
    by_cases h0 : lim = 0
    · rw [if_neg (by omega)]; exact ⟨c, base, rfl, .inr (.inr ⟨h0, rfl⟩)⟩
    · rw [if_pos h0]
      have hlt : base + lim / 2 < es.length := by omega
      unfold Sort.rd
      rw [List.getElem?_eq_getElem hlt]
      simp only
      split
      · exact ⟨_, _, rfl, .inl hlt⟩
      · rename_i hk
        split
        · obtain ⟨c', pos, e, h⟩ := ih (base + lim / 2 + 1) ((lim - 1) / 2) (key es[base + lim / 2]) (by omega) (by omega)
          refine ⟨c', pos, e, ?_⟩
          rcases h with h | h | ⟨_, h⟩
          · exact .inl h
          · exact .inr (.inl h)
          · exact .inr (.inl (by rw [h]; exact hk))
        · obtain ⟨c', pos, e, h⟩ := ih base (lim / 2) (key es[base + lim / 2]) (by omega) (by omega)
          refine ⟨c', pos, e, ?_⟩
          rcases h with h | h | ⟨_, h⟩
          · exact .inl h
          · exact .inr (.inl h)
          · exact .inr (.inl (by rw [h]; exact hk))

/-- the homing search always returns; a hit is inside the array -/
theorem bsearch_total {key : Entry → Int} {es : List Entry} :
    (∃ pos, Sort.bsearch key es = .ok (false, pos)) ∨ (∃ pos, Sort.bsearch key es = .ok (true, pos) ∧ pos < es.length) := by
  unfold Sort.bsearch
  obtain ⟨c, pos, e, h⟩ := bsearchLoop_total (key := key) (es := es) (es.length + 1) 0 es.length (-1) (by omega) (by omega)
  rw [e]
  by_cases hc : c = 0
  · right
    subst hc
    refine ⟨pos, by simp, ?_⟩
    rcases h with h | h | ⟨_, h⟩
    · exact h
    · exact absurd rfl h
    · omega
  · left; exact ⟨pos, by simp [hc]⟩

theorem scanFwd_total (name : Bytes) (klen : Nat) (es : List Entry) (fuel : Nat) : ∀ i, es.length - i < fuel →
    (scanFwd name klen es fuel i = .ok none) ∨ (∃ p e, scanFwd name klen es fuel i = .ok (some p) ∧ es[p]? = some e ∧ nameMatches name e = true) := by
  induction fuel with
  | zero => intro i h; omega
  | succ fuel ih =>
    intro i h
    rw [scanFwd]
    split
    · rename_i hi
      rw [List.getElem?_eq_getElem hi]
      simp only
      split
      · left; rfl
      · split
        · rename_i hm; right; exact ⟨i, es[i], rfl, List.getElem?_eq_getElem hi, hm⟩
        · exact ih (i + 1) (by omega)
    · left; rfl

theorem scanBwd_total (name : Bytes) (klen : Nat) (es : List Entry) (i : Nat) (h : i ≤ es.length) :
    (scanBwd name klen es i = .ok none) ∨ (∃ p e, scanBwd name klen es i = .ok (some p) ∧ es[p]? = some e ∧ nameMatches name e = true) := by
  induction i with
  | zero => left; rfl
  | succ i ih =>
    rw [scanBwd, List.getElem?_eq_getElem (by omega : i < es.length)]
    simp only
    split
    · left; rfl
    · split
      · rename_i hm; right; exact ⟨i, _, rfl, List.getElem?_eq_getElem (by omega), hm⟩
      · exact ih (by omega)

/-- the forward scan reaches a match that lies ahead -/
theorem scanFwd_finds {name : Bytes} {klen : Nat} {es : List Entry} {t : Nat} {e : Entry} (ha : Around (homingCmp name klen) es t)
    (he : es[t]? = some e) (hm : nameMatches name e = true) (fuel : Nat) : ∀ i, es.length - i < fuel → i ≤ t →
    ∃ p e', scanFwd name klen es fuel i = .ok (some p) ∧ es[p]? = some e' ∧ nameMatches name e' = true := by
  induction fuel with
  | zero => intro i h; omega
  | succ fuel ih =>
    intro i h hit
    rw [scanFwd]
    have hi : i < es.length := by have := ha.lt; omega
    rw [if_pos hi, List.getElem?_eq_getElem hi]
    simp only
    have hg := List.getElem?_eq_getElem hi
    have hnn : ¬ homingCmp name klen es[i] < 0 := by
      rcases Nat.lt_or_eq_of_le hit with h1 | h1
      · have := ha.before i _ h1 hg; omega
      · subst h1; have := ha.at_ _ hg; omega
    rw [if_neg hnn]
    split
    · rename_i hm'; exact ⟨i, _, rfl, hg, hm'⟩
    · rename_i hm'
      apply ih (i + 1) (by omega)
      rcases Nat.lt_or_eq_of_le hit with h1 | h1
      · omega
      · subst h1; rw [hg] at he; cases he; exact absurd hm hm'

theorem scanBwd_finds {name : Bytes} {klen : Nat} {es : List Entry} {t : Nat} {e : Entry} (ha : Around (homingCmp name klen) es t)
    (he : es[t]? = some e) (hm : nameMatches name e = true) (i : Nat) (hi : i ≤ es.length) (ht : t < i) :
    ∃ p e', scanBwd name klen es i = .ok (some p) ∧ es[p]? = some e' ∧ nameMatches name e' = true := by
  induction i with
  | zero => omega
  | succ i ih =>
    rw [scanBwd]
    have hlt : i < es.length := by omega
    have hg := List.getElem?_eq_getElem hlt
    rw [hg]
    simp only
    have hnn : ¬ 0 < homingCmp name klen es[i] := by
      rcases Nat.lt_trichotomy t i with h1 | h1 | h1
      · have := ha.after i _ h1 hg; omega
      · subst h1; have := ha.at_ _ hg; omega
      · omega
    rw [if_neg hnn]
    split
    · rename_i hm'; exact ⟨i, _, rfl, hg, hm'⟩
    · rename_i hm'
      apply ih (by omega)
      rcases Nat.lt_trichotomy t i with h1 | h1 | h1
      · exact h1
      · subst h1; rw [hg] at he; cases he; exact absurd hm hm'
      · omega

theorem nameMatches_iff {name : Bytes} {e : Entry} (h : Plain e) : nameMatches name e = true ↔ e.name = name := by
  unfold nameMatches
  rw [h.flen]
  simp only [decide_eq_true_eq, bcmp_zero]
  constructor
  · rintro ⟨h1, h2⟩
    rw [← h1, List.take_length] at h2
    exact h2.symm
  · rintro rfl; simp

/-- in a tree in git order, the prefix comparison with the name of an entry is non-negative before it and non-positive after it -/
theorem around_of_sorted {es : List Entry} (hp : ∀ e ∈ es, Plain e)
    (hs : es.Pairwise (fun a b => gitKey a.attr a.name ≤ gitKey b.attr b.name)) {t : Nat} {e : Entry} (he : es[t]? = some e) :
    Around (homingCmp e.name (e.name.length % 65536)) es t := by
  have htl : t < es.length := (List.getElem?_eq_some_iff.mp he).1
  have hmem : ∀ {j x}, es[j]? = some x → x ∈ es := fun h => List.mem_of_getElem? h
  have pe := hp e (hmem he)
  have hlen : e.name.length % 65536 = e.name.length := Nat.mod_eq_of_lt (by have := pe.len; omega)
  have hk : ∀ (m : Nat) (n : Bytes) (k : Nat), k ≤ n.length → (gitKey m n).take k = n.take k := by
    intro m n k hk
    unfold gitKey
    split
    · rw [List.take_append]; simp [Nat.sub_eq_zero_of_le hk]
    · rfl
  have hcmp : ∀ x, Plain x → ∃ k, k ≤ e.name.length ∧ k ≤ x.name.length ∧
      homingCmp e.name (e.name.length % 65536) x = bcmp ((gitKey e.attr e.name).take k) ((gitKey x.attr x.name).take k) := by
    intro x px
    refine ⟨if e.name.length < x.name.length then e.name.length else x.name.length, by split <;> omega, by split <;> omega, ?_⟩
    rw [hk _ _ _ (by split <;> omega), hk _ _ _ (by split <;> omega)]
    unfold homingCmp
    rw [hlen, px.flen]
  refine ⟨htl, ?_, ?_, ?_⟩
  · intro x hx
    rw [he] at hx; cases hx
    unfold homingCmp
    rw [hlen, pe.flen]
    simp [bcmp_self]
  · intro j x hj hx
    obtain ⟨k, _, _, e1⟩ := hcmp x (hp x (hmem hx))
    have hle : gitKey x.attr x.name ≤ gitKey e.attr e.name := by
      obtain ⟨hjl, rfl⟩ := List.getElem?_eq_some_iff.mp hx
      obtain ⟨_, rfl⟩ := List.getElem?_eq_some_iff.mp he
      exact List.pairwise_iff_getElem.mp hs j t hjl htl hj
    have := bcmp_take k (bcmp_le.mpr hle)
    rw [e1, bcmp_neg]
    omega
  · intro j x hj hx
    obtain ⟨k, _, _, e1⟩ := hcmp x (hp x (hmem hx))
    have hle : gitKey e.attr e.name ≤ gitKey x.attr x.name := by
      obtain ⟨hjl, rfl⟩ := List.getElem?_eq_some_iff.mp hx
      obtain ⟨_, rfl⟩ := List.getElem?_eq_some_iff.mp he
      exact List.pairwise_iff_getElem.mp hs t j htl hjl hj
    have := bcmp_take k (bcmp_le.mpr hle)
    rw [e1]
    exact this

/-- the search returns (no read outside the array), and what it returns matches -/
theorem treeKeySearch_total (es : List Entry) (name : Bytes) :
    treeKeySearch es name = .err ENOTFOUND ∨ ∃ p e, treeKeySearch es name = .ok p ∧ es[p]? = some e ∧ nameMatches name e = true := by
  unfold treeKeySearch
  simp only
  rcases bsearch_total (key := homingCmp name (name.length % 65536)) (es := es) with ⟨pos, e⟩ | ⟨pos, e, hpos⟩
  · rw [e]; left; rfl
  · rw [e]
    simp only
    rcases scanFwd_total name (name.length % 65536) es (es.length + 1) pos (by omega) with h | ⟨p, x, h, h1, h2⟩
    · rw [h]
      simp only
      rcases scanBwd_total name (name.length % 65536) es pos (by omega) with h | ⟨p, x, h, h1, h2⟩
      · rw [h]; left; rfl
      · rw [h]; right; exact ⟨p, x, rfl, h1, h2⟩
    · rw [h]; right; exact ⟨p, x, rfl, h1, h2⟩

theorem treeKeySearch_finds {es : List Entry} (hp : ∀ e ∈ es, Plain e)
    (hs : es.Pairwise (fun a b => gitKey a.attr a.name ≤ gitKey b.attr b.name)) {e : Entry} (he : e ∈ es) :
    ∃ p e', treeKeySearch es e.name = .ok p ∧ es[p]? = some e' ∧ nameMatches e.name e' = true := by
  obtain ⟨t, ht⟩ := List.getElem?_of_mem he
  have ha := around_of_sorted hp hs ht
  have hm : nameMatches e.name e = true := (nameMatches_iff (hp e he)).mpr rfl
  unfold treeKeySearch
  simp only
  obtain ⟨pos, e1, hpos⟩ := bsearch_around ha (es.length + 1) 0 es.length (-1) (by omega) (by omega) (by have := ha.lt; omega) (by omega)
  have : Sort.bsearch (homingCmp e.name (e.name.length % 65536)) es = .ok (true, pos) := by
    unfold Sort.bsearch; rw [e1]; simp
  rw [this]
  simp only
  by_cases hle : pos ≤ t
  · obtain ⟨p, x, h, h1, h2⟩ := scanFwd_finds ha ht hm (es.length + 1) pos (by omega) hle
    rw [h]; exact ⟨p, x, rfl, h1, h2⟩
  · rcases scanFwd_total e.name (e.name.length % 65536) es (es.length + 1) pos (by omega) with h | ⟨p, x, h, h1, h2⟩
    · rw [h]
      simp only
      obtain ⟨p, x, h, h1, h2⟩ := scanBwd_finds ha ht hm pos (by omega) (by omega)
      rw [h]; exact ⟨p, x, rfl, h1, h2⟩
    · rw [h]; exact ⟨p, x, rfl, h1, h2⟩

end Verif.Tree
