import Verif.Tree.LemmasCodec
import Verif.Sort.Props
namespace Verif.Tree
open Spec

theorem and_type (x : Nat) (h : x < 65536) : x &&& 0o170000 = x / 4096 * 4096 := by
  have e : (0o170000 : Nat) = 15 <<< 12 := rfl
  have e2 : x = ((x >>> 12) <<< 12) + x % 4096 := by rw [Nat.shiftRight_eq_div_pow, Nat.shiftLeft_eq]; omega
  have : x / 4096 * 4096 = (x / 4096) <<< 12 := by rw [Nat.shiftLeft_eq]
  rw [e, this]
  apply Nat.eq_of_testBit_eq
  intro i
  rw [Nat.testBit_and, Nat.testBit_shiftLeft, Nat.testBit_shiftLeft]
  by_cases hi : 12 ≤ i
  · have h1 : x / 4096 = x >>> 12 := by rw [Nat.shiftRight_eq_div_pow]
    rw [h1, Nat.testBit_shiftRight]
    have h2 : 12 + (i - 12) = i := by omega
    rw [h2]
    simp only [hi, decide_true, Bool.true_and]
    have h3 : Nat.testBit 15 (i - 12) = decide (i - 12 < 4) := by
      have : (15 : Nat) = 2 ^ 4 - 1 := rfl
      rw [this, Nat.testBit_two_pow_sub_one]
    rw [h3]
    by_cases h4 : i - 12 < 4
    · simp [h4]
    · have : x.testBit i = false := Nat.testBit_lt_two_pow (Nat.lt_of_lt_of_le h (by
        have : (65536 : Nat) = 2 ^ 16 := rfl
        rw [this]; exact Nat.pow_le_pow_right (by omega) (by omega)))
      simp [this]
  · simp [hi]

theorem isTree_iff (e : Entry) (h : e.attr < 65536) : e.isTree = decide (e.attr / 4096 = 4) := by
  unfold Entry.isTree
  rw [and_type _ h]
  apply decide_eq_decide.mpr
  omega

/-- names the sort order is meant for -/
structure Plain (e : Entry) : Prop where
  attr : e.attr < 65536
  noslash : c!"/" ∉ e.name
  nonul : (0 : UInt8) ∉ e.name
  len : e.name.length ≤ 65535

theorem Plain.flen {e : Entry} (h : Plain e) : e.flen = e.name.length := by
  unfold Entry.flen; exact Nat.mod_eq_of_lt (by have := h.len; omega)

theorem fsPathCmp_eq (a b : Bytes) (da db : Bool) (ha : c!"/" ∉ a) (ha0 : (0 : UInt8) ∉ a) (hb : c!"/" ∉ b) (hb0 : (0 : UInt8) ∉ b) :
    fsPathCmp a a.length da b b.length db = bcmp (a ++ if da then b!"/" else []) (b ++ if db then b!"/" else []) := by
  induction a generalizing b with
  | nil =>
    cases b with
    | nil => cases da <;> cases db <;> decide
    | cons y ys =>
      simp only [List.mem_cons, not_or] at hb hb0
      have h1 : (0 : UInt8) < y := by
        rw [UInt8.lt_iff_toNat_lt]
        have : y.toNat ≠ 0 := fun h => hb0.1 (UInt8.toNat_inj.mp (by simp [h]))
        simp; omega
      unfold fsPathCmp endChar charAt
      have hy : ¬ y = 0 := fun h => hb0.1 h.symm
      cases da
      · simp [bcmp, h1, hy]
      · simp [bcmp, hy]
        have hne : y.toNat ≠ 47 := fun h => hb.1 (UInt8.toNat_inj.mp (by simp [h]))
        simp only [UInt8.lt_iff_toNat_lt]
        simp
        split
        · rfl
        · rw [if_pos (by omega), if_pos (by omega)]
  | cons x xs ih =>
    simp only [List.mem_cons, not_or] at ha ha0
    cases b with
    | nil =>
      have h1 : (0 : UInt8) < x := by
        rw [UInt8.lt_iff_toNat_lt]
        have : x.toNat ≠ 0 := fun h => ha0.1 (UInt8.toNat_inj.mp (by simp [h]))
        simp; omega
      have h1' : ¬ x < 0 := by simp only [UInt8.lt_iff_toNat_lt] at h1 ⊢; omega
      unfold fsPathCmp endChar charAt
      have hx : ¬ x = 0 := fun h => ha0.1 h.symm
      cases db
      · simp [bcmp, h1, hx]
      · simp [bcmp, hx]
        have hne : x.toNat ≠ 47 := fun h => ha.1 (UInt8.toNat_inj.mp (by simp [h]))
        simp only [UInt8.lt_iff_toNat_lt]
        simp
        split
        · rfl
        · rw [if_pos (by omega), if_pos (by omega)]
    | cons y ys =>
      simp only [List.mem_cons, not_or] at hb hb0
      have := ih ys ha.2 ha0.2 hb.2 hb0.2
      simp only [List.cons_append, bcmp]
      rw [← this]
      unfold fsPathCmp endChar charAt
      have hl : (if (x :: xs).length < (y :: ys).length then (x :: xs).length else (y :: ys).length) =
          (if xs.length < ys.length then xs.length else ys.length) + 1 := by
        simp only [List.length_cons]; split <;> split <;> omega
      rw [hl]
      simp only [List.take_succ_cons, List.getElem?_cons_succ, bcmp]
      by_cases h1 : x < y
      · simp [h1]
      · by_cases h2 : y < x
        · simp [h1, h2]
        · simp only [h1, h2, if_false]

theorem entrySortCmp_eq {a b : Entry} (ha : Plain a) (hb : Plain b) :
    entrySortCmp a b = bcmp (gitKey a.attr a.name) (gitKey b.attr b.name) := by
  unfold entrySortCmp
  rw [ha.flen, hb.flen, fsPathCmp_eq _ _ _ _ ha.noslash ha.nonul hb.noslash hb.nonul, isTree_iff a ha.attr, isTree_iff b hb.attr]
  unfold gitKey
  by_cases h1 : a.attr / 4096 = 4 <;> by_cases h2 : b.attr / 4096 = 4 <;> simp [h1, h2]

theorem gitKey_name {m m' : Nat} {n n' : Bytes} (h1 : c!"/" ∉ n) (h2 : c!"/" ∉ n') (h : gitKey m n = gitKey m' n') : n = n' := by
  unfold gitKey at h
  split at h <;> split at h
  · exact List.append_cancel_right h
  · subst h; exact absurd (List.mem_append_right _ (by simp)) h2
  · subst h; exact absurd (List.mem_append_right _ (by simp)) h1
  · exact h

/-- Sorting plain entries with distinct names: if the sort reports success it produces the strictly ascending arrangement. -/
theorem sortEntries_ok {es out : List Entry} (hp : ∀ e ∈ es, Plain e) (hn : (es.map (·.name)).Nodup) (h : sortEntries es = .ok out) :
    out.Perm es ∧ out.Pairwise (fun a b => gitKey a.attr a.name < gitKey b.attr b.name) := by
  unfold sortEntries at h
  split at h
  · rename_i l hl
    cases h
    have hc : Sort.Spec.TotalPreorder (fun (a b : { e // e ∈ es }) => entrySortCmp a.1 b.1) := by
      constructor
      · intro a b
        rw [entrySortCmp_eq (hp _ a.2) (hp _ b.2), entrySortCmp_eq (hp _ b.2) (hp _ a.2), bcmp_neg (gitKey b.1.attr b.1.name)]
        omega
      · intro a b c
        rw [entrySortCmp_eq (hp _ a.2) (hp _ b.2), entrySortCmp_eq (hp _ b.2) (hp _ c.2), entrySortCmp_eq (hp _ a.2) (hp _ c.2)]
        exact bcmp_trans
    have hs : Sort.Spec.StableSort (fun (a b : { e // e ∈ es }) => entrySortCmp a.1 b.1) es.attach l := by
      rcases Sort.C26_sorts_any hc es.attach with ⟨l', h1, h2⟩ | ⟨_, h1⟩
      · rw [hl] at h1; cases h1; exact h2
      · rw [hl] at h1; cases h1
    have hperm : (l.map (·.1)).Perm es := by
      have := hs.stable.perm.map (·.1)
      rwa [List.attach_map_subtype_val] at this
    refine ⟨hperm, ?_⟩
    have hnd : ((l.map (·.1)).map (·.name)).Nodup := (hperm.map (·.name)).nodup_iff.mpr hn
    have hle : (l.map (·.1)).Pairwise (fun a b => entrySortCmp a b ≤ 0) := by
      rw [List.pairwise_map]; exact hs.sorted
    have hnd' : (l.map (·.1)).Pairwise (fun a b => a.name ≠ b.name) := by
      rw [List.Nodup, List.pairwise_map] at hnd; exact hnd
    have hboth := hle.and hnd'
    apply hboth.imp_of_mem
    intro a b ha hb ⟨h1, h2⟩
    have pa := hp a (hperm.mem_iff.mp ha)
    have pb := hp b (hperm.mem_iff.mp hb)
    rw [entrySortCmp_eq pa pb] at h1
    rw [← bcmp_lt]
    have : bcmp (gitKey a.attr a.name) (gitKey b.attr b.name) ≠ 0 := by
      intro h0
      exact h2 (gitKey_name pa.noslash pb.noslash (bcmp_zero.mp h0))
    omega
  · cases h
  · cases h

theorem sortEntries_small {es : List Entry} (hp : ∀ e ∈ es, Plain e) (hs : es.length ≤ 2 ^ 47) : ∃ out, sortEntries es = .ok out := by
  unfold sortEntries
  have hc : Sort.Spec.TotalPreorder (fun (a b : { e // e ∈ es }) => entrySortCmp a.1 b.1) := by
    constructor
    · intro a b
      rw [entrySortCmp_eq (hp _ a.2) (hp _ b.2), entrySortCmp_eq (hp _ b.2) (hp _ a.2), bcmp_neg (gitKey b.1.attr b.1.name)]
      omega
    · intro a b c
      rw [entrySortCmp_eq (hp _ a.2) (hp _ b.2), entrySortCmp_eq (hp _ b.2) (hp _ c.2), entrySortCmp_eq (hp _ a.2) (hp _ c.2)]
      exact bcmp_trans
  obtain ⟨l, h1, _⟩ := Sort.C26_sorts hc es.attach (by simpa using hs)
  rw [h1]
  exact ⟨_, rfl⟩

end Verif.Tree
