import Verif.Mailmap.Model
import Verif.Sort.Props
/-! # The table of a mailmap -/
namespace Verif.Mailmap
open Spec (Entry)

theorem entryCmp_zero {a b : Entry} : entryCmp a b = 0 ↔ a.email = b.email ∧ a.name = b.name := by
  unfold entryCmp
  by_cases h : bcmp a.email b.email = 0
  · rw [if_neg (by simpa using h)]
    have he := bcmp_zero.mp h
    cases ha : a.name <;> cases hb : b.name <;> simp [he, bcmp_zero]
  · rw [if_pos h]
    constructor
    · intro h'; exact absurd h' h
    · rintro ⟨h', _⟩; exact absurd (bcmp_zero.mpr h') h

theorem entryCmp_neg (a b : Entry) : entryCmp b a = - entryCmp a b := by
  unfold entryCmp
  rw [bcmp_neg a.email b.email]
  by_cases h : bcmp a.email b.email = 0
  · rw [if_neg (by omega), if_neg (by omega)]
    cases ha : a.name <;> cases hb : b.name <;> first | exact bcmp_neg _ _ | rfl
  · rw [if_pos (by omega), if_pos h]

theorem entryCmp_trans {a b c : Entry} (h1 : entryCmp a b ≤ 0) (h2 : entryCmp b c ≤ 0) : entryCmp a c ≤ 0 := by
  unfold entryCmp at *
  by_cases h3 : bcmp a.email b.email = 0
  · have e1 := bcmp_zero.mp h3
    rw [if_neg (by omega)] at h1
    rw [e1]
    by_cases h4 : bcmp b.email c.email = 0
    · rw [if_neg (by omega)] at h2 ⊢
      cases ha : a.name <;> cases hb : b.name <;> cases hc : c.name <;> simp_all
      exact bcmp_trans h1 h2
    · rw [if_pos h4] at h2 ⊢; exact h2
  · rw [if_pos h3] at h1
    by_cases h4 : bcmp b.email c.email = 0
    · rw [← bcmp_zero.mp h4, if_pos h3]; exact h1
    · rw [if_pos h4] at h2
      have := bcmp_trans h1 h2
      by_cases h5 : bcmp a.email c.email = 0
      · have e := bcmp_zero.mp h5
        rw [e, bcmp_neg b.email c.email] at h1; omega
      · rw [if_pos h5]; exact this

theorem entryCmp_congr_left {a a' : Entry} (h : entryCmp a a' = 0) (b : Entry) : entryCmp a b = entryCmp a' b := by
  obtain ⟨h1, h2⟩ := entryCmp_zero.mp h
  unfold entryCmp; rw [h1, h2]

/-- the vector is sorted, without duplicates -/
def MSorted (mm : List Entry) : Prop := mm.Pairwise (fun a b => entryCmp a b < 0)

theorem MSorted.searchable {mm : List Entry} (h : MSorted mm) (k : Entry) : Sort.Spec.Searchable (entryCmp k) mm := by
  refine List.Pairwise.imp ?_ h
  intro x y hxy
  constructor
  · intro hy
    have h1 : entryCmp y k ≤ 0 := by rw [entryCmp_neg k y]; omega
    have h2 := entryCmp_trans (le_of_lt hxy) h1
    by_cases h0 : entryCmp k x = 0
    · rw [entryCmp_congr_left h0 y] at hy; omega
    · rw [entryCmp_neg k x] at h2; omega
  · intro hx
    have h2 := entryCmp_trans (le_of_lt hx) (le_of_lt hxy)
    by_cases h0 : entryCmp k y = 0
    · have h3 := entryCmp_congr_left h0 x
      rw [entryCmp_neg x y] at h3; omega
    · omega

theorem insert_ok {mm : List Entry} (h : MSorted mm) (a : Entry) :
    ∃ mm', insert mm a = .ok mm' ∧ MSorted mm' ∧ ∀ x, x ∈ mm' ↔ x = a ∨ (entryCmp a x ≠ 0 ∧ x ∈ mm) := by
  obtain ⟨found, pos, h1, h2, h3, h4⟩ := Sort.C26_bsearch _ mm (h.searchable a)
  unfold insert
  rw [h1]
  simp only
  cases found with
  | true =>
    obtain ⟨x, hx, h0⟩ := h3 rfl
    obtain ⟨hp, hx'⟩ := List.getElem?_eq_some_iff.mp hx
    have hsplit : mm = mm.take pos ++ x :: mm.drop (pos + 1) := by
      rw [← hx', List.getElem_cons_drop, List.take_append_drop]
    have hset : mm.set pos a = mm.take pos ++ a :: mm.drop (pos + 1) := List.set_eq_take_append_cons_drop.trans (by rw [if_pos hp])
    rw [if_pos rfl]
    have hs := h
    rw [MSorted, hsplit, List.pairwise_append, List.pairwise_cons] at hs
    refine ⟨_, rfl, ?_, ?_⟩
    · rw [hset, MSorted, List.pairwise_append, List.pairwise_cons]
      refine ⟨hs.1, ⟨?_, hs.2.1.2⟩, ?_⟩
      · intro b hb; rw [entryCmp_congr_left h0]; exact hs.2.1.1 b hb
      · intro b hb c hc
        rcases List.mem_cons.mp hc with rfl | hc
        · rw [entryCmp_neg c b, entryCmp_congr_left h0]
          have := hs.2.2 b hb x (by simp)
          rw [entryCmp_neg x b] at this; exact this
        · exact hs.2.2 b hb c (by simp [hc])
    · intro y
      rw [hset]
      have hlt : ∀ y ∈ mm.take pos, entryCmp a y ≠ 0 := by
        intro y hy
        rw [entryCmp_congr_left h0]
        have := hs.2.2 y hy x (by simp)
        rw [entryCmp_neg x y] at this; omega
      have hgt : ∀ y ∈ mm.drop (pos + 1), entryCmp a y ≠ 0 := by
        intro y hy
        rw [entryCmp_congr_left h0]
        have := hs.2.1.1 y hy
        omega
      constructor
      · intro hy
        rw [List.mem_append, List.mem_cons] at hy
        rcases hy with hy | rfl | hy
        · exact .inr ⟨hlt y hy, List.mem_of_mem_take hy⟩
        · exact .inl rfl
        · exact .inr ⟨hgt y hy, List.mem_of_mem_drop hy⟩
      · rintro (rfl | ⟨h5, h6⟩)
        · simp
        · rw [hsplit, List.mem_append, List.mem_cons] at h6
          rw [List.mem_append, List.mem_cons]
          rcases h6 with h6 | rfl | h6
          · exact .inl h6
          · exact absurd h0 h5
          · exact .inr (.inr h6)
  | false =>
    obtain ⟨g0, g1, g2⟩ := h4 rfl
    rw [if_neg (by simp)]
    refine ⟨_, rfl, ?_, ?_⟩
    · have hs := h
      rw [MSorted, ← List.take_append_drop pos mm, List.pairwise_append] at hs
      rw [MSorted, List.pairwise_append, List.pairwise_cons]
      refine ⟨hs.1, ⟨g2, hs.2.1⟩, ?_⟩
      intro b hb c hc
      rcases List.mem_cons.mp hc with rfl | hc
      · have := g1 b hb
        rw [entryCmp_neg c b]; omega
      · exact hs.2.2 b hb c hc
    · intro y
      have hm : y ∈ mm ↔ y ∈ mm.take pos ∨ y ∈ mm.drop pos := by rw [← List.mem_append, List.take_append_drop]
      rw [List.mem_append, List.mem_cons]
      constructor
      · rintro (hy | rfl | hy)
        · have := g1 y hy; exact .inr ⟨by omega, hm.mpr (.inl hy)⟩
        · exact .inl rfl
        · have := g2 y hy; exact .inr ⟨by omega, hm.mpr (.inr hy)⟩
      · rintro (rfl | ⟨_, h6⟩)
        · simp
        · rcases hm.mp h6 with h6 | h6
          · exact .inl h6
          · exact .inr (.inr h6)

/-! ## The history behind a table -/

/-- the last entry for a key -/
def lastFor (h : List Entry) (email : Bytes) (name : Option Bytes) : Option Entry := h.reverse.find? (fun e => e.email = email ∧ e.name = name)

/-- the table holds, for every key, the last entry added -/
structure Rep (mm h : List Entry) : Prop where
  sorted : MSorted mm
  mem : ∀ x, x ∈ mm ↔ lastFor h x.email x.name = some x

theorem lastFor_snoc (h : List Entry) (a : Entry) (email : Bytes) (name : Option Bytes) :
    lastFor (h ++ [a]) email name = if a.email = email ∧ a.name = name then some a else lastFor h email name := by
  unfold lastFor
  rw [List.reverse_append, List.reverse_singleton, List.singleton_append, List.find?_cons]
  by_cases hc : a.email = email ∧ a.name = name
  · simp [hc]
  · rw [if_neg hc]; simp [hc]

theorem lastFor_key {h : List Entry} {email : Bytes} {name : Option Bytes} {x : Entry} (hx : lastFor h email name = some x) :
    x.email = email ∧ x.name = name := by
  have := List.find?_some hx
  simpa using this

theorem rep_nil : Rep [] [] := ⟨List.Pairwise.nil, by simp [lastFor]⟩

theorem insert_rep {mm h : List Entry} (hr : Rep mm h) (a : Entry) : ∃ mm', insert mm a = .ok mm' ∧ Rep mm' (h ++ [a]) := by
  obtain ⟨mm', h1, h2, h3⟩ := insert_ok hr.sorted a
  refine ⟨mm', h1, h2, ?_⟩
  intro x
  rw [h3, lastFor_snoc, hr.mem]
  by_cases hc : a.email = x.email ∧ a.name = x.name
  · rw [if_pos hc]
    have : entryCmp a x = 0 := entryCmp_zero.mpr hc
    simp [this, eq_comm]
  · rw [if_neg hc]
    have h0 : entryCmp a x ≠ 0 := fun h => hc (entryCmp_zero.mp h)
    constructor
    · rintro (rfl | ⟨_, h⟩)
      · simp at hc
      · exact h
    · intro h; exact .inr ⟨h0, h⟩

/-- the entry for a key, in the table -/
theorem Rep.find {mm h : List Entry} (hr : Rep mm h) (email : Bytes) (name : Option Bytes) (x : Entry) :
    lastFor h email name = some x ↔ x ∈ mm ∧ x.email = email ∧ x.name = name := by
  constructor
  · intro hx
    obtain ⟨h1, h2⟩ := lastFor_key hx
    refine ⟨(hr.mem x).mpr ?_, h1, h2⟩
    rw [h1, h2]; exact hx
  · rintro ⟨hx, rfl, rfl⟩
    exact (hr.mem x).mp hx

theorem Rep.find_none {mm h : List Entry} (hr : Rep mm h) (email : Bytes) (name : Option Bytes)
    (hn : ∀ x ∈ mm, ¬ (x.email = email ∧ x.name = name)) : lastFor h email name = none := by
  cases hl : lastFor h email name with
  | none => rfl
  | some x => exact absurd ((hr.find email name x).mp hl).2 (hn x ((hr.find email name x).mp hl).1)

/-! ## The search -/

theorem scan_spec (name email : Bytes) : ∀ (l : List Entry), MSorted l → (∀ x ∈ l, entryCmp ⟨none, none, none, email⟩ x < 0) →
    (∃ e, scan name email l = some (some e) ∧ e ∈ l ∧ e.email = email ∧ e.name = some name) ∨
    (scan name email l = none ∧ ∀ e ∈ l, ¬ (e.email = email ∧ e.name = some name))
  | [], _, _ => .inr ⟨rfl, by simp⟩
  | a :: l, hs, hk => by
    rw [MSorted, List.pairwise_cons] at hs
    have ih := scan_spec name email l hs.2 (fun x hx => hk x (by simp [hx]))
    unfold scan
    by_cases he : a.email = email
    · rw [if_neg (by simpa using he)]
      have ha := hk a (by simp)
      cases hn : a.name with
      | none =>
        exfalso
        have : entryCmp ⟨none, none, none, email⟩ a = 0 := entryCmp_zero.mpr ⟨he.symm, hn.symm⟩
        omega
      | some n =>
        dsimp only
        by_cases hnn : n = name
        · rw [if_pos hnn]
          exact .inl ⟨a, rfl, by simp, he, by rw [hn, hnn]⟩
        · rw [if_neg hnn]
          rcases ih with ⟨e, h1, h2, h3⟩ | ⟨h1, h2⟩
          · exact .inl ⟨e, h1, by simp [h2], h3⟩
          · refine .inr ⟨h1, ?_⟩
            intro e hel
            rcases List.mem_cons.mp hel with rfl | hel
            · rw [hn]; simp [hnn]
            · exact h2 e hel
    · rw [if_pos he]
      refine .inr ⟨rfl, ?_⟩
      have hka := hk a (by simp)
      have key : ∀ e ∈ l, e.email ≠ email := by
        intro e hel hee
        have h1 := hs.1 e hel
        unfold entryCmp at hka h1
        dsimp only at hka
        have n0 : bcmp email a.email ≠ 0 := fun h => he (bcmp_zero.mp h).symm
        rw [if_pos n0] at hka
        rw [hee, bcmp_neg email a.email] at h1
        rw [if_pos (by omega)] at h1
        omega
      intro e hel
      rcases List.mem_cons.mp hel with rfl | hel
      · simp [he]
      · simp [key e hel]

theorem lookup_rep {mm h : List Entry} (hr : Rep mm h) (name email : Bytes) : lookup mm name email = .ok (Spec.rule h name email) := by
  obtain ⟨found, pos, h1, h2, h3, h4⟩ := Sort.C26_bsearch _ mm (hr.sorted.searchable ⟨none, none, none, email⟩)
  have hrule : Spec.rule h name email = match lastFor h email (some name) with
    | some e => some e
    | none => lastFor h email none := rfl
  rw [hrule]
  unfold lookup
  rw [h1]
  dsimp only
  cases found with
  | true =>
    obtain ⟨x, hx, h0⟩ := h3 rfl
    obtain ⟨k1, k2⟩ := entryCmp_zero.mp h0
    dsimp only at k1 k2
    obtain ⟨hp, hx'⟩ := List.getElem?_eq_some_iff.mp hx
    have hsplit : mm = mm.take pos ++ x :: mm.drop (pos + 1) := by
      rw [← hx', List.getElem_cons_drop, List.take_append_drop]
    have hs := hr.sorted
    rw [MSorted, hsplit, List.pairwise_append, List.pairwise_cons] at hs
    have hsp := scan_spec name email (mm.drop (pos + 1)) hs.2.1.2 (by
      intro y hy
      have h0' : entryCmp (⟨none, none, none, email⟩ : Entry) x = 0 := h0
      rw [entryCmp_congr_left h0']; exact hs.2.1.1 y hy)
    simp only [if_true]
    rcases hsp with ⟨e, g1, g2, g3, g4⟩ | ⟨g1, g2⟩
    · rw [g1, (hr.find email (some name) e).mpr ⟨List.mem_of_mem_drop g2, g3, g4⟩]
    · rw [g1, hr.find_none email (some name) ?_, hx, (hr.find email none x).mpr ⟨List.mem_of_getElem? hx, k1.symm, k2.symm⟩]
      intro y hy hc
      rw [hsplit, List.mem_append, List.mem_cons] at hy
      rcases hy with hy | rfl | hy
      · have g3 := hs.2.2 y hy x (by simp)
        have : entryCmp x y < 0 := by
          unfold entryCmp
          rw [← k1, ← k2, hc.1, bcmp_self, hc.2]; simp
        rw [entryCmp_neg x y] at g3; omega
      · rw [← k2] at hc; simp at hc
      · exact g2 y hy hc
  | false =>
    obtain ⟨g0, g1, g2⟩ := h4 rfl
    have hs := hr.sorted
    rw [MSorted, ← List.take_append_drop pos mm, List.pairwise_append] at hs
    have hsp := scan_spec name email (mm.drop pos) hs.2.1 g2
    simp only [Bool.false_eq_true, if_false]
    rcases hsp with ⟨e, k1, k2, k3, k4⟩ | ⟨k1, k2⟩
    · rw [k1, (hr.find email (some name) e).mpr ⟨List.mem_of_mem_drop k2, k3, k4⟩]
    · rw [k1, hr.find_none email (some name) ?_, hr.find_none email none ?_]
      · intro y hy hc
        have : entryCmp (⟨none, none, none, email⟩ : Entry) y = 0 := entryCmp_zero.mpr ⟨hc.1.symm, hc.2.symm⟩
        rw [← List.take_append_drop pos mm, List.mem_append] at hy
        rcases hy with hy | hy
        · have := g1 y hy; omega
        · have := g2 y hy; omega
      · intro y hy hc
        rw [← List.take_append_drop pos mm, List.mem_append] at hy
        rcases hy with hy | hy
        · have := g1 y hy
          unfold entryCmp at this
          dsimp only at this
          rw [← hc.1, bcmp_self, hc.2] at this; simp at this
        · exact k2 y hy hc

theorem resolve_rep {mm h : List Entry} (hr : Rep mm h) (name email : Bytes) : resolve (some mm) name email = .ok (Spec.shown h name email) := by
  unfold resolve Spec.shown
  dsimp only
  rw [lookup_rep hr]
  cases Spec.rule h name email <;> rfl

end Verif.Mailmap
