import Verif.IndexTree.Spec
import Verif.Tree.Props
import Verif.TreeDiff.Lemmas1
import Verif.Index.Lemmas
/-! # Object databases that grow; paths -/
namespace Verif.IndexTree
open Spec
open TreeDiff.Spec (At Good Has)

theorem readObj_append {odb : Odb} {id b : Bytes} (ext : Odb) (h : readObj odb id = some b) : readObj (odb ++ ext) id = some b := by
  induction odb with
  | nil => cases h
  | cons o odb ih =>
    obtain ⟨i, x⟩ := o
    simp only [readObj, List.cons_append] at h ⊢
    split at h
    · rename_i hi; rw [if_pos hi]; exact h
    · rename_i hi; rw [if_neg hi]; exact ih h

theorem readObj_mem {odb : Odb} {id b : Bytes} (h : readObj odb id = some b) : (id, b) ∈ odb := by
  induction odb with
  | nil => cases h
  | cons o odb ih =>
    obtain ⟨i, x⟩ := o
    simp only [readObj] at h
    split at h
    · rename_i hi; cases h; subst hi; simp
    · exact List.mem_cons_of_mem _ (ih h)

theorem readObj_isSome {odb : Odb} {id b : Bytes} (h : (id, b) ∈ odb) : ∃ b', readObj odb id = some b' := by
  induction odb with
  | nil => cases h
  | cons o odb ih =>
    obtain ⟨i, x⟩ := o
    simp only [readObj]
    split
    · exact ⟨x, rfl⟩
    · rename_i hi
      rcases List.mem_cons.mp h with h | h
      · cases h; exact absurd rfl hi
      · exact ih h

theorem readObj_of_mem {odb : Odb} {id b : Bytes} (hc : Collisionless odb) (h : (id, b) ∈ odb) : readObj odb id = some b := by
  obtain ⟨b', hb⟩ := readObj_isSome h
  rw [hb]
  exact congrArg some (hc _ (readObj_mem hb) _ h rfl)

theorem Collisionless.left {odb ext : Odb} (h : Collisionless (odb ++ ext)) : Collisionless odb :=
  fun x hx y hy => h x (List.mem_append_left _ hx) y (List.mem_append_left _ hy)

/-- a store that has what another one has -/
def Extends (s t : TreeDiff.Store) : Prop := ∀ id es, s id = some es → t id = some es

theorem trees_append (odb ext : Odb) : Extends (trees odb) (trees (odb ++ ext)) := by
  intro id es h
  unfold trees lookupTree at h ⊢
  cases hr : readObj odb id with
  | none => rw [hr] at h; cases h
  | some b => rw [hr] at h; rw [readObj_append ext hr]; exact h

theorem good_extends {s t : TreeDiff.Store} (hst : Extends s t) {es : List TreeDiff.Entry} (h : Good s es) : Good t es := by
  induction h with
  | @mk es hc hs hg ih =>
    refine .mk hc ?_ ?_
    · intro d hd ht
      have := hs d hd ht
      cases hx : s d.id with
      | none => exact absurd hx this
      | some sub => rw [hst _ _ hx]; simp
    · intro d hd ht sub hsub
      have := hs d hd ht
      cases hx : s d.id with
      | none => exact absurd hx this
      | some sub' =>
        have h' := hst _ _ hx
        rw [hsub] at h'; cases h'
        exact ih d hd ht sub hx

theorem at_extends {s t : TreeDiff.Store} (hst : Extends s t) {es : List TreeDiff.Entry} {p : Bytes} {e : TreeDiff.Entry} (h : At s es p e) : At t es p e := by
  induction h with
  | here he => exact .here he
  | inside hd ht hs _ ih => exact .inside hd ht (hst _ _ hs) ih

theorem at_restrict {s t : TreeDiff.Store} (hst : Extends s t) {es : List TreeDiff.Entry} {p : Bytes} {e : TreeDiff.Entry} (hg : Good s es) (h : At t es p e) : At s es p e := by
  induction h with
  | here he => exact .here he
  | @inside es sub d e p hd ht hs _ ih =>
    cases hg with
    | mk hc hn hgs =>
      cases hx : s d.id with
      | none => exact absurd hx (hn d hd ht)
      | some sub' =>
        have h' := hst _ _ hx
        rw [hs] at h'; cases h'
        exact .inside hd ht hx (ih (hgs d hd ht sub hx))

theorem represents_extends {odb odb' : Odb} {id : Bytes} {f : Bytes → Nat → Bytes → Prop} (hx : Extends (trees odb) (trees odb')) (h : Represents odb id f) : Represents odb' id f := by
  obtain ⟨es, h1, h2, h3⟩ := h
  refine ⟨es, hx _ _ h1, good_extends hx h2, ?_⟩
  intro p m i
  rw [← h3 p m i]
  constructor
  · rintro ⟨es', e, he, ha, hr⟩
    cases he
    exact ⟨es, e, rfl, at_restrict hx h2 ha, hr⟩
  · rintro ⟨es', e, he, ha, hr⟩
    cases he
    exact ⟨es, e, rfl, at_extends hx ha, hr⟩

theorem represents_append {odb : Odb} {id : Bytes} {f : Bytes → Nat → Bytes → Prop} (ext : Odb) (h : Represents odb id f) : Represents (odb ++ ext) id f :=
  represents_extends (trees_append odb ext) h

theorem represents_congr {odb : Odb} {id : Bytes} {f g : Bytes → Nat → Bytes → Prop} (h : Represents odb id f) (hfg : ∀ p m i, f p m i ↔ g p m i) : Represents odb id g := by
  obtain ⟨es, h1, h2, h3⟩ := h
  exact ⟨es, h1, h2, fun p m i => (h3 p m i).trans (hfg p m i)⟩

/-! ## Paths -/

/-- the files of a list of entries that begin with a prefix -/
def filesP (A : List Index.Entry) (π : Bytes) : Bytes → Nat → Bytes → Prop := fun p m i => ∃ e ∈ A, e.path = π ++ p ∧ e.mode = m ∧ e.id = i

theorem inDir_iff {d p : Bytes} : inDir d p = true ↔ pre d <+: p := by
  unfold inDir pre
  by_cases hd : d = []
  · subst hd; simp [bcmp]
  · have hl : 0 < d.length := List.length_pos_of_ne_nil hd
    rw [if_neg hd]
    simp only [decide_eq_true_eq, not_or, Decidable.not_not, hl, true_and, bcmp_zero]
    have ht : p.take d.length = d ↔ d <+: p := by rw [List.prefix_iff_eq_take, eq_comm]
    rw [ht]
    constructor
    · rintro ⟨h1, ⟨t, rfl⟩, h3⟩
      cases t with
      | nil => simp [Index.charAt] at h3
      | cons c t =>
        simp only [Index.charAt, List.getElem?_append_right (Nat.le_refl _), Nat.sub_self, List.getElem?_cons_zero, Option.getD_some] at h3
        subst h3
        exact ⟨t, by simp⟩
    · rintro ⟨t, rfl⟩
      refine ⟨by simp, ⟨b!"/" ++ t, by simp⟩, ?_⟩
      simp [Index.charAt]

theorem pre_ends (d : Bytes) : pre d = [] ∨ (pre d).getLast? = some c!"/" := by
  unfold pre
  split
  · exact .inl rfl
  · exact .inr (by simp)

/-- the first component -/
def comp (q : Bytes) : Bytes := q.takeWhile (· ≠ c!"/")

theorem comp_noslash (q : Bytes) : c!"/" ∉ comp q := by
  induction q with
  | nil => simp [comp]
  | cons c q ih =>
    unfold comp at ih ⊢
    by_cases hc : c = c!"/"
    · subst hc; simp
    · rw [List.takeWhile_cons_of_pos (by simpa using hc)]
      simp only [List.mem_cons, not_or]
      exact ⟨Ne.symm hc, ih⟩

theorem comp_split (q : Bytes) : (q = comp q) ∨ ∃ r, q = comp q ++ b!"/" ++ r := by
  induction q with
  | nil => exact .inl rfl
  | cons c q ih =>
    unfold comp at ih ⊢
    by_cases hc : c = c!"/"
    · subst hc
      right
      exact ⟨q, by simp⟩
    · rw [List.takeWhile_cons_of_pos (by simpa using hc)]
      rcases ih with h | ⟨r, h⟩
      · left; rw [← h]
      · right; exact ⟨r, by rw [List.cons_append, List.cons_append, ← h]⟩

theorem comp_file {q : Bytes} (h : c!"/" ∉ q) : comp q = q := by
  rcases comp_split q with h' | ⟨r, h'⟩
  · exact h'.symm
  · rw [h'] at h; simp at h

theorem comp_dir {w : Bytes} (h : c!"/" ∉ w) (r : Bytes) : comp (w ++ b!"/" ++ r) = w := by
  unfold comp
  rw [List.append_assoc, List.takeWhile_append_of_pos]
  · simp
  · intro c hc
    simp only [ne_eq, decide_not, Bool.not_eq_eq_eq_not, Bool.not_true, decide_eq_false_iff_not]
    rintro rfl
    exact h hc

theorem fileName_eq {d q : Bytes} (hg : GoodPath (pre d ++ q)) : fileName d (pre d ++ q) = q := by
  have hq := (hg.2 (pre d) q rfl (pre_ends d)).2
  unfold fileName
  unfold pre at hq hg ⊢
  by_cases hd : d = []
  · subst hd
    simp only [if_true, List.nil_append, List.length_nil, List.drop_zero]
    split
    · rename_i h
      cases q with
      | nil => rfl
      | cons c q => simp only [Index.charAt, List.getElem?_cons_zero, Option.getD_some] at h; subst h; simp at hq
    · rfl
  · rw [if_neg hd]
    simp [Index.charAt]

theorem findIdx_slash (q : Bytes) : q.findIdx? (· = c!"/") = if c!"/" ∈ q then some (comp q).length else none := by
  induction q with
  | nil => rfl
  | cons c q ih =>
    rw [List.findIdx?_cons]
    unfold comp at ih ⊢
    by_cases hc : c = c!"/"
    · subst hc; simp
    · rw [List.takeWhile_cons_of_pos (by simpa using hc)]
      rw [if_neg (by simpa using hc), ih]
      by_cases hm : c!"/" ∈ q
      · simp [hm]
      · simp [hm, Ne.symm hc]

theorem lastComp_eq {d w : Bytes} (h : c!"/" ∉ w) : lastComp (pre d ++ w) = w := by
  unfold lastComp
  have hw : ∀ c ∈ w.reverse, (decide (c ≠ c!"/")) = true := by
    intro c hc
    simp only [ne_eq, decide_not, Bool.not_eq_eq_eq_not, Bool.not_true, decide_eq_false_iff_not]
    rintro rfl
    exact h (by simpa using hc)
  rw [List.reverse_append, List.takeWhile_append_of_pos hw]
  unfold pre
  split
  · simp
  · simp

theorem pre_sub {d w : Bytes} (hw : w ≠ []) : pre (pre d ++ w) = pre d ++ w ++ b!"/" := by
  rw [pre, if_neg (by simp [hw])]

theorem subdir_eq {d w r : Bytes} (hg : GoodPath (pre d ++ (w ++ b!"/" ++ r))) (hw : c!"/" ∉ w) :
    (pre d ++ (w ++ b!"/" ++ r)).take ((pre d ++ (w ++ b!"/" ++ r)).length - (fileName d (pre d ++ (w ++ b!"/" ++ r))).length + (comp (fileName d (pre d ++ (w ++ b!"/" ++ r)))).length)
      = pre d ++ w := by
  rw [fileName_eq hg, comp_dir hw]
  have : (pre d ++ (w ++ b!"/" ++ r)).length - (w ++ b!"/" ++ r).length + w.length = (pre d ++ w).length := by simp
  rw [this, List.append_assoc w, ← List.append_assoc, List.take_left]

/-! ## Sorted lists -/

/-- paths strictly ascending -/
def Asc (A : List Index.Entry) : Prop := A.Pairwise (fun a b => a.path < b.path)

theorem asc_inj {A : List Index.Entry} (h : Asc A) {x y : Index.Entry} (hx : x ∈ A) (hy : y ∈ A) (hp : x.path = y.path) : x = y := by
  induction A with
  | nil => cases hx
  | cons a A ih =>
    have h' := List.pairwise_cons.mp h
    rcases List.mem_cons.mp hx with h1 | h1
    · rcases List.mem_cons.mp hy with h2 | h2
      · rw [h1, h2]
      · exact absurd (h'.1 y h2) (by rw [← h1, hp]; exact fun h => B.lt_irrefl h)
    · rcases List.mem_cons.mp hy with h2 | h2
      · exact absurd (h'.1 x h1) (by rw [← h2, hp]; exact fun h => B.lt_irrefl h)
      · exact ih h'.2 h1 h2

theorem findNextDir_suffix (d : Bytes) (l : List Index.Entry) : findNextDir d l <:+ l := by
  induction l with
  | nil => exact List.suffix_refl _
  | cons e es ih =>
    unfold findNextDir
    split
    · exact ih.trans (List.suffix_cons _ _)
    · exact List.suffix_refl _

theorem findNextDir_length (d : Bytes) (l : List Index.Entry) : (findNextDir d l).length ≤ l.length := (findNextDir_suffix d l).length_le

/-- In what is left there is nothing in the directory, if the list begins with an entry in it. -/
theorem findNextDir_none {d : Bytes} {e : Index.Entry} {es : List Index.Entry} (h : Asc (e :: es)) (he : pre d <+: e.path) :
    ∀ y ∈ findNextDir d (e :: es), ¬ pre d <+: y.path := by
  induction es generalizing e with
  | nil => intro y hy; simp [findNextDir, inDir_iff.mpr he] at hy
  | cons e' es ih =>
    have h' := List.pairwise_cons.mp h
    unfold findNextDir
    rw [if_pos (inDir_iff.mpr he)]
    by_cases he' : pre d <+: e'.path
    · exact ih h'.2 he'
    · unfold findNextDir
      rw [if_neg (by rw [inDir_iff]; exact he')]
      intro y hy hp
      rcases List.mem_cons.mp hy with rfl | hy
      · exact he' hp
      · have h2 := (List.pairwise_cons.mp h'.2).1 y hy
        have h1 := h'.1 e' (by simp)
        exact he' (B.convex' (B.le_trans (B.prefix_le he) (B.le_of_lt h1)) (B.le_of_lt h2) hp)

/-- the entries that are dropped are in the directory -/
theorem findNextDir_mem {d : Bytes} {l : List Index.Entry} {x : Index.Entry} (hx : x ∈ l) : x ∈ findNextDir d l ∨ pre d <+: x.path := by
  induction l with
  | nil => cases hx
  | cons e es ih =>
    unfold findNextDir
    by_cases he : inDir d e.path = true
    · rw [if_pos he]
      rcases List.mem_cons.mp hx with rfl | hx
      · exact .inr (inDir_iff.mp he)
      · exact ih hx
    · rw [if_neg he]; exact .inl hx

theorem findNextDir_sub {d s : Bytes} (hds : pre d <+: pre s) (l : List Index.Entry) : findNextDir d (findNextDir s l) = findNextDir d l := by
  induction l with
  | nil => rfl
  | cons e es ih =>
    by_cases hs : inDir s e.path = true
    · have hd : inDir d e.path = true := inDir_iff.mpr (hds.trans (inDir_iff.mp hs))
      rw [findNextDir, if_pos hs, ih]
      conv => rhs; rw [findNextDir, if_pos hd]
    · rw [findNextDir, if_neg hs]

end Verif.IndexTree
