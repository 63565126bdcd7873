import Verif.PQueue.Model
import Verif.PQueue.Spec
namespace Verif.PQueue
open Spec

variable {α : Type} {cmp : α → α → Int}

/-- every item comes after its parent, or not before it -/
def Heap (cmp : α → α → Int) (v : List α) : Prop :=
  ∀ i a b, 0 < i → v[(i - 1) / 2]? = some a → v[i]? = some b → cmp a b ≤ 0

/-- the heap order holds but for the item `el` and its parent -/
def UpInv (cmp : α → α → Int) (v : List α) (el : Nat) : Prop :=
  (∀ i a b, 0 < i → i ≠ el → v[(i - 1) / 2]? = some a → v[i]? = some b → cmp a b ≤ 0) ∧
  (∀ c a b, 0 < c → (c - 1) / 2 = el → 0 < el → v[(el - 1) / 2]? = some a → v[c]? = some b → cmp a b ≤ 0)

/-- the heap order holds but for the item `el` and its kids -/
def DownInv (cmp : α → α → Int) (v : List α) (el : Nat) : Prop :=
  (∀ i a b, 0 < i → (i - 1) / 2 ≠ el → v[(i - 1) / 2]? = some a → v[i]? = some b → cmp a b ≤ 0) ∧
  (∀ c a b, 0 < c → (c - 1) / 2 = el → 0 < el → v[(el - 1) / 2]? = some a → v[c]? = some b → cmp a b ≤ 0)

/-- moving the hole from `i` to `j` -/
theorem hole_perm {l : List α} {i j : Nat} {x y : α} (hi : i < l.length) (hij : i ≠ j) (hy : l[j]? = some y) :
    ((l.set i y).set j x).Perm (l.set i x) := by
  obtain ⟨hj, ey⟩ := List.getElem?_eq_some_iff.mp hy
  have h := List.set_set_perm (as := l.set i x) (i := i) (j := j) (by simpa using hi) (by simpa using hj)
  rw [List.getElem_set_ne hij, List.getElem_set_self, List.set_set, ey] at h
  exact h

theorem hole_get {l : List α} {i j : Nat} {x y : α} (hi : i < l.length) (hij : i ≠ j) (hy : l[j]? = some y) (k : Nat) :
    ((l.set i y).set j x)[k]? = if k = j then some x else if k = i then some y else (l.set i x)[k]? := by
  obtain ⟨hj, ey⟩ := List.getElem?_eq_some_iff.mp hy
  by_cases h1 : k = j
  · subst h1
    rw [if_pos rfl, List.getElem?_set_self (by simpa using hj)]
  · rw [if_neg h1, List.getElem?_set_ne (Ne.symm h1)]
    by_cases h2 : k = i
    · subst h2
      rw [if_pos rfl, List.getElem?_set_self hi]
    · rw [if_neg h2, List.getElem?_set_ne (Ne.symm h2), List.getElem?_set_ne (Ne.symm h2)]

theorem up_spec (hc : Preorder cmp) (el : Nat) : ∀ (l : List α) (kid : α), el < l.length →
    ∃ r, up cmp l el kid = some r ∧ r.Perm (l.set el kid) ∧ (UpInv cmp (l.set el kid) el → Heap cmp r) := by
  induction el using Nat.strongRecOn with
  | ind el ih =>
    intro l kid hl
    rw [up]
    by_cases h0 : el > 0
    · rw [dif_pos h0]
      have hpl : (el - 1) / 2 < l.length := by omega
      have hpe : (el - 1) / 2 < el := by omega
      have hne : el ≠ (el - 1) / 2 := by omega
      have hp : l[(el - 1) / 2]? = some l[(el - 1) / 2] := List.getElem?_eq_getElem hpl
      generalize l[(el - 1) / 2] = parent at hp
      rw [hp]
      simp only
      have hvp : (l.set el kid)[(el - 1) / 2]? = some parent := by rw [List.getElem?_set_ne hne]; exact hp
      have hve : (l.set el kid)[el]? = some kid := List.getElem?_set_self hl
      by_cases hle : cmp parent kid ≤ 0
      · rw [if_pos hle]
        refine ⟨_, rfl, List.Perm.refl _, ?_⟩
        intro hinv i a b hi ha hb
        by_cases hie : i = el
        · subst hie
          rw [hvp] at ha; rw [hve] at hb
          cases ha; cases hb; exact hle
        · exact hinv.1 i a b hi hie ha hb
      · rw [if_neg hle]
        have hle' : cmp kid parent ≤ 0 := (hc.total parent kid).resolve_left hle
        obtain ⟨r, h1, h2, h3⟩ := ih ((el - 1) / 2) hpe (l.set el parent) kid (by simpa using hpl)
        refine ⟨r, h1, h2.trans (hole_perm hl hne hp), fun hinv => h3 ?_⟩
        have hget := hole_get (x := kid) hl hne hp
        generalize l.set el kid = v at *
        generalize hp' : (el - 1) / 2 = pe at *
        constructor
        · intro i a b hi hipe ha hb
          rw [hget] at ha hb
          rw [if_neg hipe] at hb
          by_cases hie : i = el
          · subst hie
            rw [hp', if_pos rfl] at ha
            rw [if_pos rfl] at hb
            cases ha; cases hb; exact hle'
          · rw [if_neg hie] at hb
            by_cases h4 : (i - 1) / 2 = pe
            · rw [if_pos h4] at ha
              cases ha
              exact hc.trans _ _ _ hle' (hinv.1 i parent b hi hie (by rw [h4]; exact hvp) hb)
            · rw [if_neg h4] at ha
              by_cases h5 : (i - 1) / 2 = el
              · rw [if_pos h5] at ha
                cases ha
                exact hinv.2 i parent b hi h5 h0 (by rw [hp']; exact hvp) hb
              · rw [if_neg h5] at ha
                exact hinv.1 i a b hi hie ha hb
        · intro c a b hc0 hcp hp0 ha hb
          rw [hget] at ha hb
          rw [if_neg (by omega), if_neg (by omega)] at ha
          have h6 : cmp a parent ≤ 0 := hinv.1 pe a parent hp0 (by omega) ha hvp
          rw [if_neg (by omega)] at hb
          by_cases hce : c = el
          · rw [if_pos hce] at hb
            cases hb; exact h6
          · rw [if_neg hce] at hb
            exact hc.trans _ _ _ h6 (hinv.1 c parent b hc0 hce (by rw [hcp]; exact hvp) hb)
    · rw [dif_neg h0]
      refine ⟨_, rfl, List.Perm.refl _, ?_⟩
      intro hinv i a b hi ha hb
      exact hinv.1 i a b hi (by omega) ha hb

/-- the chosen kid is not after its sibling -/
theorem kidOf_min (hc : Preorder cmp) {l : List α} {el k : Nat} {x : α} (h : kidOf cmp l el = some (k, x)) :
    (k - 1) / 2 = el ∧ 0 < k ∧ ∀ c b, 0 < c → (c - 1) / 2 = el → l[c]? = some b → cmp x b ≤ 0 := by
  have refl : ∀ a, cmp a a ≤ 0 := fun a => (hc.total a a).elim id id
  unfold kidOf at h
  split at h
  · cases h
  · rename_i kid hk
    split at h
    · rename_i rkid hr
      split at h
      · rename_i hgt
        cases h
        refine ⟨by omega, by omega, ?_⟩
        intro c b hc0 hcp hb
        have : c = 2 * el + 1 ∨ c = 2 * el + 2 := by omega
        rcases this with rfl | rfl
        · rw [hk] at hb; cases hb
          exact (hc.total _ _).resolve_left (by omega)
        · rw [hr] at hb; cases hb; exact refl _
      · rename_i hgt
        cases h
        refine ⟨by omega, by omega, ?_⟩
        intro c b hc0 hcp hb
        have : c = 2 * el + 1 ∨ c = 2 * el + 2 := by omega
        rcases this with rfl | rfl
        · rw [hk] at hb; cases hb; exact refl _
        · rw [hr] at hb; cases hb; omega
    · rename_i hr
      cases h
      refine ⟨by omega, by omega, ?_⟩
      intro c b hc0 hcp hb
      have : c = 2 * el + 1 ∨ c = 2 * el + 2 := by omega
      rcases this with rfl | rfl
      · rw [hk] at hb; cases hb; exact refl _
      · rw [hr] at hb; cases hb

theorem down_spec (hc : Preorder cmp) (n : Nat) : ∀ (l : List α) (el : Nat) (parent : α), l.length - el ≤ n → el < l.length →
    (down cmp l el parent).Perm (l.set el parent) ∧ (DownInv cmp (l.set el parent) el → Heap cmp (down cmp l el parent)) := by
  induction n with
  | zero => intro l el parent h1 h2; omega
  | succ n ih =>
    intro l el parent hn hl
    rw [down]
    have hve : (l.set el parent)[el]? = some parent := List.getElem?_set_self hl
    split
    · -- no kids
      rename_i hk
      have hkn : l[2 * el + 1]? = none := by
        unfold kidOf at hk
        split at hk
        · assumption
        · split at hk
          · split at hk <;> cases hk
          · cases hk
      rw [List.getElem?_eq_none_iff] at hkn
      refine ⟨List.Perm.refl _, ?_⟩
      intro hinv i a b hi ha hb
      have hib := (List.getElem?_eq_some_iff.mp hb).1
      rw [List.length_set] at hib
      exact hinv.1 i a b hi (by omega) ha hb
    · rename_i k kid hk
      obtain ⟨h1, h2, h3⟩ := kidOf_lt hk
      obtain ⟨h4, h5, h6⟩ := kidOf_min hc hk
      have hvk : ∀ c, c ≠ el → (l.set el parent)[c]? = l[c]? := fun c h => List.getElem?_set_ne (Ne.symm h)
      by_cases hle : cmp parent kid ≤ 0
      · rw [if_pos hle]
        refine ⟨List.Perm.refl _, ?_⟩
        intro hinv i a b hi ha hb
        by_cases hie : (i - 1) / 2 = el
        · rw [hie, hve] at ha
          cases ha
          rw [hvk i (by omega)] at hb
          exact hc.trans _ _ _ hle (h6 i b hi hie hb)
        · exact hinv.1 i a b hi hie ha hb
      · rw [if_neg hle]
        have hle' : cmp kid parent ≤ 0 := (hc.total parent kid).resolve_left hle
        have hne : el ≠ k := by omega
        obtain ⟨i1, i2⟩ := ih (l.set el kid) k parent (by rw [List.length_set]; omega) (by rw [List.length_set]; omega)
        refine ⟨i1.trans (hole_perm hl hne h3), fun hinv => i2 ?_⟩
        have hget := hole_get (x := parent) hl hne h3
        have h6' : ∀ c b, 0 < c → (c - 1) / 2 = el → (l.set el parent)[c]? = some b → cmp kid b ≤ 0 := by
          intro c b c0 cp cb
          rw [hvk c (by omega)] at cb
          exact h6 c b c0 cp cb
        have hvk' : (l.set el parent)[k]? = some kid := by rw [hvk k (by omega)]; exact h3
        generalize l.set el parent = v at *
        constructor
        · intro i a b hi hik ha hb
          rw [hget] at ha hb
          rw [if_neg hik] at ha
          by_cases hie : (i - 1) / 2 = el
          · rw [if_pos hie] at ha
            cases ha
            by_cases h7 : i = k
            · rw [if_pos h7] at hb
              cases hb; exact hle'
            · rw [if_neg h7, if_neg (by omega)] at hb
              exact h6' i b hi hie hb
          · rw [if_neg hie] at ha
            rw [if_neg (by rintro rfl; exact hie h4)] at hb
            by_cases h7 : i = el
            · rw [if_pos h7] at hb
              cases hb
              subst h7
              exact hinv.2 k a kid h5 h4 (by omega) ha hvk'
            · rw [if_neg h7] at hb
              exact hinv.1 i a b hi hie ha hb
        · intro c a b hc0 hck hk0 ha hb
          rw [hget] at ha hb
          rw [h4, if_neg hne, if_pos rfl] at ha
          cases ha
          rw [if_neg (by omega), if_neg (by omega)] at hb
          exact hinv.1 c kid b hc0 (by omega) (by rw [hck]; exact hvk') hb

/-- the first item of a heap comes first -/
theorem heap_min (hc : Preorder cmp) {v : List α} (hv : Heap cmp v) {m : α} (hm : v[0]? = some m) : ∀ (i : Nat) (b : α), v[i]? = some b → cmp m b ≤ 0 := by
  intro i
  induction i using Nat.strongRecOn with
  | ind i ih =>
    intro b hb
    by_cases h0 : i = 0
    · subst h0
      rw [hm] at hb; cases hb
      exact (hc.total m m).elim id id
    · have hl := (List.getElem?_eq_some_iff.mp hb).1
      have hp : v[(i - 1) / 2]? = some v[(i - 1) / 2] := List.getElem?_eq_getElem (by omega)
      exact hc.trans _ _ _ (ih _ (by omega) _ hp) (hv i _ b (by omega) hp hb)

theorem heap_nil : Heap cmp ([] : List α) := by intro i a b _ _ hb; simp at hb

theorem insert_heap (hc : Preorder cmp) {l : List α} (x : α) (hl : Heap cmp l) :
    ∃ r, up cmp (l ++ [x]) l.length x = some r ∧ r.Perm (x :: l) ∧ Heap cmp r := by
  obtain ⟨r, h1, h2, h3⟩ := up_spec hc l.length (l ++ [x]) x (by simp)
  have hset : (l ++ [x]).set l.length x = l ++ [x] := by simp
  rw [hset] at h2 h3
  refine ⟨r, h1, h2.trans (List.perm_append_singleton x l), h3 ⟨?_, ?_⟩⟩
  · intro i a b hi hne ha hb
    have hib := (List.getElem?_eq_some_iff.mp hb).1
    rw [List.length_append, List.length_singleton] at hib
    rw [List.getElem?_append_left (by omega)] at ha hb
    exact hl i a b hi ha hb
  · intro c a b hc0 hcp _ _ hb
    have hib := (List.getElem?_eq_some_iff.mp hb).1
    rw [List.length_append, List.length_singleton] at hib
    omega

theorem pop_heap (hc : Preorder cmp) {x last : α} {rest : List α} (hl : Heap cmp (x :: rest)) (hlast : rest.getLast? = some last) :
    (down cmp (((x :: rest).set 0 last).dropLast) 0 last).Perm rest ∧ Heap cmp (down cmp (((x :: rest).set 0 last).dropLast) 0 last) := by
  have hne : rest ≠ [] := by rintro rfl; simp at hlast
  have hrest : rest = rest.dropLast ++ [last] := by
    rw [List.getLast?_eq_some_getLast hne, Option.some.injEq] at hlast
    rw [← hlast]; exact (List.dropLast_concat_getLast hne).symm
  have hv : ((x :: rest).set 0 last).dropLast = last :: rest.dropLast := by
    rw [List.set_cons_zero, List.dropLast_cons_of_ne_nil hne]
  rw [hv]
  have hlen : rest.dropLast.length < rest.length := by
    rw [List.length_dropLast]
    have := List.length_pos_iff.mpr hne
    omega
  obtain ⟨h1, h2⟩ := down_spec hc (last :: rest.dropLast).length (last :: rest.dropLast) 0 last (by omega) (by simp)
  rw [List.set_cons_zero] at h1 h2
  refine ⟨h1.trans ?_, h2 ⟨?_, ?_⟩⟩
  · conv => rhs; rw [hrest]
    exact (List.perm_append_singleton last _).symm
  · intro i a b hi hp ha hb
    have hg : ∀ k, 0 < k → (last :: rest.dropLast)[k]? = some a ∨ (last :: rest.dropLast)[k]? = some b → (x :: rest)[k]? = (last :: rest.dropLast)[k]? := by
      intro k hk hkk
      obtain ⟨k, rfl⟩ : ∃ k', k = k' + 1 := ⟨k - 1, by omega⟩
      simp only [List.getElem?_cons_succ] at hkk ⊢
      have hkl : k < rest.dropLast.length := by
        rcases hkk with h | h
        · exact (List.getElem?_eq_some_iff.mp h).1
        · exact (List.getElem?_eq_some_iff.mp h).1
      conv => lhs; rw [hrest]
      rw [List.getElem?_append_left hkl]
    have ha' := hg _ (by omega) (.inl ha)
    have hb' := hg _ hi (.inr hb)
    exact hl i a b hi (ha'.trans ha) (hb'.trans hb)
  · intro c a b _ _ h; omega

end Verif.PQueue
