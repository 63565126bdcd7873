import Verif.Attr.Model
import Verif.Sort.Props
import Verif.Ignore.Lemmas4
/-! # Assignments -/
namespace Verif.Attr
open Spec
open Ignore (nextLine)
open Wildmatch (isSpace)

theorem nameCmp_zero {a b : Bytes} : nameCmp a b = 0 ↔ a = b := by
  unfold nameCmp
  constructor
  · intro h
    split at h
    · omega
    · split at h
      · omega
      · exact (bcmp_zero.mp h).symm
  · rintro rfl
    simp [bcmp_self]

theorem nameCmp_flip (a b : Bytes) : nameCmp a b < 0 ↔ 0 < nameCmp b a := by
  unfold nameCmp
  have := bcmp_neg a b
  split <;> split <;> (try split) <;> (try omega)

theorem nameCmp_trans (a b c : Bytes) (h1 : nameCmp a b ≤ 0) (h2 : nameCmp b c ≤ 0) : nameCmp a c ≤ 0 := by
  unfold nameCmp at *
  split at h1
  · omega
  · split at h2
    · omega
    · split
      · omega
      · split
        · omega
        · split at h1
          · omega
          · split at h2
            · omega
            · exact bcmp_trans h2 h1

theorem nameCmp_lt_trans {a b c : Bytes} (h1 : nameCmp a b < 0) (h2 : nameCmp b c < 0) : nameCmp a c < 0 := by
  have h := nameCmp_trans a b c (by omega) (by omega)
  rcases Int.lt_or_eq_of_le h with h | h
  · exact h
  · rw [nameCmp_zero] at h
    subst h
    have := (nameCmp_flip a b).mp h1
    omega

/-- the vector of assignments: sorted, and no name twice -/
def AsSorted (as : List Assign) : Prop := as.Pairwise (fun a b => nameCmp a.name b.name < 0)

theorem AsSorted.searchable {as : List Assign} (h : AsSorted as) (n : Bytes) : Sort.Spec.Searchable (fun x : Assign => nameCmp n x.name) as := by
  refine h.imp ?_
  intro a b hab
  constructor
  · intro hb
    have := (nameCmp_flip b.name n).mpr hb
    exact (nameCmp_flip a.name n).mp (nameCmp_lt_trans hab this)
  · intro ha
    exact nameCmp_lt_trans ha hab

theorem AsSorted.unique {as : List Assign} (h : AsSorted as) {a b : Assign} (ha : a ∈ as) (hb : b ∈ as) (e : a.name = b.name) : a = b := by
  induction as with
  | nil => cases ha
  | cons x as ih =>
    rw [AsSorted, List.pairwise_cons] at h
    have hne : ∀ y ∈ as, x.name ≠ y.name := by
      intro y hy e
      have := h.1 y hy
      rw [e, nameCmp_zero.mpr rfl] at this
      omega
    rcases List.mem_cons.mp ha with rfl | ha1
    · rcases List.mem_cons.mp hb with rfl | hb
      · rfl
      · exact absurd e (hne _ hb)
    · rcases List.mem_cons.mp hb with rfl | hb
      · exact absurd e.symm (hne _ ha1)
      · exact ih h.2 ha1 hb

theorem findAssign_ok {as : List Assign} (h : AsSorted as) (n : Bytes) :
    (∃ a, findAssign as n = .ok (some a) ∧ a ∈ as ∧ a.name = n) ∨ (findAssign as n = .ok none ∧ ∀ a ∈ as, a.name ≠ n) := by
  obtain ⟨found, pos, h1, h2, h3, h4⟩ := Sort.C26_bsearch _ as (h.searchable n)
  unfold findAssign
  rw [h1]
  cases found with
  | true =>
    left
    obtain ⟨x, hx, h0⟩ := h3 rfl
    simp only [if_true, hx]
    exact ⟨x, rfl, List.mem_of_getElem? hx, (nameCmp_zero.mp h0).symm⟩
  | false =>
    right
    refine ⟨rfl, ?_⟩
    rintro a ha rfl
    have := h2.mpr ⟨a, ha, nameCmp_zero.mpr rfl⟩
    cases this

theorem insertAssign_ok {as : List Assign} (h : AsSorted as) (a : Assign) :
    ∃ as', insertAssign as a = .ok as' ∧ AsSorted as' ∧ ∀ x, x ∈ as' ↔ x = a ∨ (x.name ≠ a.name ∧ x ∈ as) := by
  obtain ⟨found, pos, h1, h2, h3, h4⟩ := Sort.C26_bsearch _ as (h.searchable a.name)
  unfold insertAssign
  rw [h1]
  simp only
  cases found with
  | true =>
    obtain ⟨x, hx, h0⟩ := h3 rfl
    have hn := nameCmp_zero.mp h0
    obtain ⟨hp, hx'⟩ := List.getElem?_eq_some_iff.mp hx
    have hsplit : as = as.take pos ++ x :: as.drop (pos + 1) := by
      rw [← hx', List.getElem_cons_drop, List.take_append_drop]
    have hset : as.set pos a = as.take pos ++ a :: as.drop (pos + 1) := List.set_eq_take_append_cons_drop.trans (by rw [if_pos hp])
    rw [if_pos rfl]
    refine ⟨_, rfl, ?_, ?_⟩
    · rw [hset]
      rw [AsSorted, hsplit] at h
      rw [AsSorted]
      rw [List.pairwise_append, List.pairwise_cons] at h ⊢
      refine ⟨h.1, ⟨?_, h.2.1.2⟩, ?_⟩
      · intro b hb; rw [hn]; exact h.2.1.1 b hb
      · intro b hb c hc
        rcases List.mem_cons.mp hc with rfl | hc
        · rw [hn]; exact h.2.2 b hb x (by simp)
        · exact h.2.2 b hb c (by simp [hc])
    · intro y
      rw [hset]
      have hs := h
      constructor
      · intro hy
        rw [List.mem_append, List.mem_cons] at hy
        have key : y ∈ as.take pos ∨ y ∈ as.drop (pos + 1) → y.name ≠ a.name ∧ y ∈ as := by
          intro hy
          have hm : y ∈ as := by
            rcases hy with hy | hy
            · exact List.mem_of_mem_take hy
            · exact List.mem_of_mem_drop hy
          refine ⟨?_, hm⟩
          rw [hn]
          intro e
          rw [AsSorted, hsplit, List.pairwise_append, List.pairwise_cons] at h
          rcases hy with hy | hy
          · have := h.2.2 y hy x (by simp)
            rw [e, nameCmp_zero.mpr rfl] at this; omega
          · have := h.2.1.1 y hy
            rw [e, nameCmp_zero.mpr rfl] at this; omega
        rcases hy with hy | rfl | hy
        · exact .inr (key (.inl hy))
        · exact .inl rfl
        · exact .inr (key (.inr hy))
      · rintro (rfl | ⟨hne, hy⟩)
        · simp
        · rw [hsplit, List.mem_append, List.mem_cons] at hy
          rw [List.mem_append, List.mem_cons]
          rcases hy with hy | rfl | hy
          · exact .inl hy
          · exact absurd hn.symm hne
          · exact .inr (.inr hy)
  | false =>
    obtain ⟨hp, hlt, hgt⟩ := h4 rfl
    rw [if_neg (by simp)]
    refine ⟨_, rfl, ?_, ?_⟩
    · rw [AsSorted, List.pairwise_append, List.pairwise_cons]
      refine ⟨h.sublist (List.take_sublist _ _), ⟨hgt, h.sublist (List.drop_sublist _ _)⟩, ?_⟩
      intro b hb c hc
      have hba := (nameCmp_flip b.name a.name).mpr (hlt b hb)
      rcases List.mem_cons.mp hc with rfl | hc
      · exact hba
      · exact nameCmp_lt_trans hba (hgt c hc)
    · intro y
      have hno : ∀ x ∈ as, x.name ≠ a.name := by
        intro x hx e
        have := h2.mpr ⟨x, hx, by rw [e]; exact nameCmp_zero.mpr rfl⟩
        cases this
      have hm : y ∈ as ↔ y ∈ as.take pos ∨ y ∈ as.drop pos := by
        rw [← List.mem_append, List.take_append_drop]
      rw [List.mem_append, List.mem_cons]
      constructor
      · rintro (hy | rfl | hy)
        · exact .inr ⟨hno _ (hm.mpr (.inl hy)), hm.mpr (.inl hy)⟩
        · exact .inl rfl
        · exact .inr ⟨hno _ (hm.mpr (.inr hy)), hm.mpr (.inr hy)⟩
      · rintro (rfl | ⟨_, hy⟩)
        · exact .inr (.inl rfl)
        · rcases hm.mp hy with hy | hy
          · exact .inl hy
          · exact .inr (.inr hy)

theorem gives_nil {n : Bytes} {v : Value} : ¬ Gives [] n v := by
  rintro ⟨pre, post, h, _⟩
  simp at h

theorem gives_append {a b : List Assign} {n : Bytes} {v : Value} : Gives (a ++ b) n v ↔ Gives b n v ∨ (Mute b n ∧ Gives a n v) := by
  constructor
  · rintro ⟨pre, post, h, hp⟩
    rcases List.append_eq_append_iff.mp h with ⟨c, h1, h2⟩ | ⟨c, h1, h2⟩
    · exact .inl ⟨c, post, h2, hp⟩
    · cases c with
      | nil =>
        left
        exact ⟨[], post, by simpa using h2.symm, hp⟩
      | cons x c =>
        right
        rw [List.cons_append] at h2
        injection h2 with h3 h4
        subst h3
        refine ⟨?_, pre, c, h1, ?_⟩
        · intro y hy; exact hp y (by rw [h4]; simp [hy])
        · intro y hy; exact hp y (by rw [h4]; simp [hy])
  · rintro (⟨pre, post, rfl, hp⟩ | ⟨hm, pre, post, rfl, hp⟩)
    · exact ⟨a ++ pre, post, by simp, hp⟩
    · refine ⟨pre, post ++ b, by simp, ?_⟩
      intro y hy
      rcases List.mem_append.mp hy with hy | hy
      · exact hp y hy
      · exact hm y hy

theorem gives_one {a : Assign} {n : Bytes} {v : Value} : Gives [a] n v ↔ a = ⟨n, v⟩ := by
  constructor
  · rintro ⟨pre, post, h, _⟩
    have := congrArg List.length h
    simp at this
    have h1 : pre = [] := List.length_eq_zero_iff.mp (by omega)
    have h2 : post = [] := List.length_eq_zero_iff.mp (by omega)
    subst h1 h2
    simpa using h
  · rintro rfl
    exact ⟨[], [], rfl, by simp⟩

theorem mute_iff {as : List Assign} {n : Bytes} : Mute as n ↔ ∀ v, ¬ Gives as n v := by
  induction as using list_snoc_induction with
  | hnil => simp [Mute, gives_nil]
  | hsnoc as a ih =>
    simp only [gives_append, gives_one]
    constructor
    · intro h v
      rintro (rfl | ⟨_, h2⟩)
      · exact absurd rfl (h ⟨n, v⟩ (by simp))
      · exact ih.mp (fun x hx => h x (by simp [hx])) v h2
    · intro h
      by_cases hn : a.name = n
      · exact absurd (.inl (by subst hn; rfl)) (h a.value)
      · intro x hx
        rcases List.mem_append.mp hx with hx | hx
        · refine ih.mpr ?_ x hx
          intro v hv
          refine h v (.inr ⟨?_, hv⟩)
          intro y hy
          rw [List.mem_singleton] at hy
          subst hy; exact hn
        · rw [List.mem_singleton] at hx
          subst hx; exact hn

theorem gives_unique {as : List Assign} {n : Bytes} {v w : Value} (h : Gives as n v) (h' : Gives as n w) : v = w := by
  induction as using list_snoc_induction with
  | hnil => exact absurd h gives_nil
  | hsnoc as a ih =>
    rw [gives_append, gives_one] at h h'
    rcases h with rfl | ⟨h1, h2⟩
    · rcases h' with h' | ⟨h', _⟩
      · injection h' with _ e
      · exact absurd rfl (h' ⟨n, v⟩ (by simp))
    · rcases h' with rfl | ⟨_, h3⟩
      · exact absurd rfl (h1 ⟨n, w⟩ (by simp))
      · exact ih h2 h3

/-- a vector of assignments holds what the assignments, as written, give -/
def Rep (vec as : List Assign) : Prop := AsSorted vec ∧ ∀ n v, (⟨n, v⟩ : Assign) ∈ vec ↔ Gives as n v

theorem Rep.nil : Rep [] [] := ⟨.nil, fun n v => by simp [gives_nil]⟩

theorem Rep.isNil {vec as : List Assign} (h : Rep vec as) : vec = [] ↔ as = [] := by
  constructor
  · rintro rfl
    rcases List.eq_nil_or_concat as with rfl | ⟨as, a, rfl⟩
    · rfl
    · rw [List.concat_eq_append] at h
      have := (h.2 a.name a.value).mpr (gives_append.mpr (.inl (gives_one.mpr rfl)))
      cases this
  · rintro rfl
    cases vec with
    | nil => rfl
    | cons a vec => exact absurd ((h.2 a.name a.value).mp (by simp)) gives_nil

theorem gives_sorted {vec : List Assign} (h : AsSorted vec) (n : Bytes) (v : Value) : Gives vec n v ↔ (⟨n, v⟩ : Assign) ∈ vec := by
  constructor
  · rintro ⟨pre, post, rfl, _⟩; simp
  · intro hm
    obtain ⟨pre, post, rfl⟩ := List.append_of_mem hm
    refine ⟨pre, post, rfl, ?_⟩
    intro a ha e
    rw [AsSorted, List.pairwise_append, List.pairwise_cons] at h
    have := h.2.1.1 a ha
    rw [e, nameCmp_zero.mpr rfl] at this
    omega

theorem Rep.mute {vec as : List Assign} (h : Rep vec as) (n : Bytes) : Mute vec n ↔ Mute as n := by
  rw [mute_iff, mute_iff]
  constructor
  · intro hm v hv
    exact hm v ((gives_sorted h.1 n v).mpr ((h.2 n v).mpr hv))
  · intro hm v hv
    exact hm v ((h.2 n v).mp ((gives_sorted h.1 n v).mp hv))

theorem Rep.congr {vec as as' : List Assign} (h : Rep vec as) (he : ∀ n v, Gives as n v ↔ Gives as' n v) : Rep vec as' :=
  ⟨h.1, fun n v => (h.2 n v).trans (he n v)⟩

theorem insertAssign_rep {vec as : List Assign} (h : Rep vec as) (a : Assign) : ∃ vec', insertAssign vec a = .ok vec' ∧ Rep vec' (as ++ [a]) := by
  obtain ⟨vec', h1, h2, h3⟩ := insertAssign_ok h.1 a
  refine ⟨vec', h1, h2, ?_⟩
  intro n v
  rw [h3, gives_append, gives_one, h.2]
  constructor
  · rintro (e | ⟨hn, hg⟩)
    · exact .inl e.symm
    · refine .inr ⟨?_, hg⟩
      intro x hx
      rw [List.mem_singleton] at hx
      subst hx
      exact fun e => hn e.symm
  · rintro (e | ⟨hm, hg⟩)
    · exact .inl e.symm
    · exact .inr ⟨fun e => hm a (by simp) e.symm, hg⟩

theorem insertAll_rep (l : List Assign) : ∀ {vec as : List Assign}, Rep vec as → ∃ vec', insertAll vec l = .ok vec' ∧ Rep vec' (as ++ l) := by
  induction l with
  | nil => intro vec as h; exact ⟨vec, rfl, by simpa using h⟩
  | cons a l ih =>
    intro vec as h
    obtain ⟨v1, h1, h2⟩ := insertAssign_rep h a
    obtain ⟨v2, h3, h4⟩ := ih h2
    refine ⟨v2, by rw [insertAll, h1]; exact h3, by simpa using h4⟩

/-- the macros of the cache are those of the specification -/
def MRep (m : Macros) (sm : Spec.Macros) : Prop :=
  ∀ n, (lookupMacro m n = none ∧ sm n = none) ∨ ∃ v as, lookupMacro m n = some v ∧ sm n = some as ∧ Rep v as

theorem MRep.getD {m : Macros} {sm : Spec.Macros} (h : MRep m sm) (n : Bytes) : Rep ((lookupMacro m n).getD []) ((sm n).getD []) := by
  rcases h n with ⟨h1, h2⟩ | ⟨v, as, h1, h2, h3⟩
  · rw [h1, h2]; exact Rep.nil
  · rw [h1, h2]; exact h3

theorem MRep.put {m : Macros} {sm : Spec.Macros} (h : MRep m sm) {name : Bytes} {v as : List Assign} (hr : Rep v as) (hv : v ≠ []) :
    MRep (insertMacro m name v) (fun n => if n = name then some as else sm n) := by
  intro n
  unfold insertMacro
  rw [if_neg (by simpa using hv)]
  unfold lookupMacro
  rw [List.find?_cons]
  by_cases hn : n = name
  · subst hn
    simp [hr]
  · have : (decide (name = n)) = false := by simp [Ne.symm hn]
    simp only [this, if_neg hn]
    have hf : ∀ m : Macros, (m.filter (fun p => decide (p.1 ≠ name))).find? (fun p => decide (p.1 = n)) = m.find? (fun p => decide (p.1 = n)) := by
      intro m
      induction m with
      | nil => rfl
      | cons p m ih =>
        by_cases hp : p.1 = name
        · rw [List.filter_cons_of_neg (by simp [hp]), ih, List.find?_cons_of_neg (by simp [hp, Ne.symm hn])]
        · rw [List.filter_cons_of_pos (by simp [hp]), List.find?_cons, List.find?_cons, ih]
    rw [hf]
    exact h n

theorem gives_congr_right {a b c : List Assign} (h : ∀ n v, Gives b n v ↔ Gives c n v) (n : Bytes) (v : Value) : Gives (a ++ b) n v ↔ Gives (a ++ c) n v := by
  rw [gives_append, gives_append, h, mute_iff, mute_iff]
  simp only [h]

theorem gives_congr_left {a b c : List Assign} (h : ∀ n v, Gives b n v ↔ Gives c n v) (n : Bytes) (v : Value) : Gives (b ++ a) n v ↔ Gives (c ++ a) n v := by
  rw [gives_append, gives_append, h]

/-- an assignment with its macro -/
theorem insert_word {m : Macros} {sm : Spec.Macros} (hm : MRep m sm) {vec as : List Assign} (h : Rep vec as) (a : Assign) :
    ∃ vec', insertAll vec ((if a.value = .true then (lookupMacro m a.name).getD [] else []) ++ [a]) = .ok vec' ∧ Rep vec' (as ++ expand sm [a]) := by
  obtain ⟨vec', h1, h2⟩ := insertAll_rep ((if a.value = .true then (lookupMacro m a.name).getD [] else []) ++ [a]) h
  refine ⟨vec', h1, h2.congr ?_⟩
  refine gives_congr_right ?_
  intro n v
  have : expand sm [a] = (if a.value = .true then (sm a.name).getD [] else []) ++ [a] := by simp [expand]
  rw [this]
  refine gives_congr_left ?_ n v
  intro n v
  split
  · have hr := hm.getD a.name
    rw [gives_sorted hr.1, hr.2]
  · exact Iff.rfl

end Verif.Attr
