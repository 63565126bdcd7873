import Verif.PackObjects.Lemmas2
/-! # What `git_packbuilder__prepare` leaves -/
namespace Verif.PackObjects

/-- the deltas of all objects are right, and following them ends -/
structure Ready (E : Env) (objs : List PObj) (depth : Nat) (ds : Nat → DState) (rank dep : Nat → Nat) : Prop where
  ok : ∀ i, DeltaOk E objs i (ds i)
  base : ∀ i b, (ds i).delta = some b → i < objs.length ∧ b < objs.length ∧ rank b < rank i ∧ dep i = dep b + 1
  root : ∀ i, (ds i).delta = none → dep i = 0
  depLe : ∀ i, dep i ≤ depth

theorem typeSizeSort_neg (objs : List PObj) (a b : Nat) :
    (typeSizeSort objs a b < 0 ↔ ((objAt objs b).type < (objAt objs a).type ∨ ((objAt objs a).type = (objAt objs b).type ∧
      ((objAt objs b).hash < (objAt objs a).hash ∨ ((objAt objs a).hash = (objAt objs b).hash ∧
        ((objAt objs b).size < (objAt objs a).size ∨ ((objAt objs a).size = (objAt objs b).size ∧ a < b))))))) ∧
    (0 < typeSizeSort objs a b ↔ ((objAt objs a).type < (objAt objs b).type ∨ ((objAt objs a).type = (objAt objs b).type ∧
      ((objAt objs a).hash < (objAt objs b).hash ∨ ((objAt objs a).hash = (objAt objs b).hash ∧
        ((objAt objs a).size < (objAt objs b).size ∨ ((objAt objs a).size = (objAt objs b).size ∧ b < a))))))) := by
  unfold typeSizeSort descending
  generalize (objAt objs a).type = ta
  generalize (objAt objs b).type = tb
  generalize (objAt objs a).hash = ha
  generalize (objAt objs b).hash = hb
  generalize (objAt objs a).size = sa
  generalize (objAt objs b).size = sb
  rcases Nat.lt_trichotomy ta tb with h | h | h
  · rw [if_neg (by omega : ¬ tb < ta), if_pos h, if_pos (by decide)]; omega
  · subst h
    simp only [Nat.lt_irrefl, if_false, not_true_eq_false, false_or, true_and, ne_eq]
    rcases Nat.lt_trichotomy ha hb with h | h | h
    · rw [if_neg (by omega : ¬ hb < ha), if_pos h, if_pos (by decide)]; omega
    · subst h
      simp only [Nat.lt_irrefl, if_false, not_true_eq_false, false_or, true_and, ne_eq]
      rcases Nat.lt_trichotomy sa sb with h | h | h
      · rw [if_neg (by omega : ¬ sb < sa), if_pos h, if_pos (by decide)]; omega
      · subst h
        simp only [Nat.lt_irrefl, if_false, not_true_eq_false, false_or, true_and, ne_eq]
        split
        · omega
        · split <;> omega
      · rw [if_pos h, if_pos (by decide)]; omega
    · rw [if_pos h, if_pos (by decide)]; omega
  · rw [if_pos h, if_pos (by decide)]; omega

theorem typeSizeSort_order (objs : List PObj) : Sort.Spec.TotalPreorder (typeSizeSort objs) := by
  constructor
  · intro a b
    rw [(typeSizeSort_neg objs a b).1, (typeSizeSort_neg objs b a).2]
    omega
  · intro a b c h1 h2
    have e1 := (typeSizeSort_neg objs a b).2
    have e2 := (typeSizeSort_neg objs b c).2
    have e3 := (typeSizeSort_neg objs a c).2
    rw [← Int.not_lt] at h1 h2 ⊢
    rw [e1] at h1
    rw [e2] at h2
    rw [e3]
    omega

theorem extend_len (objs : List PObj) (l : List Nat) (fuel : Nat) : extend objs l fuel l.length = l.length := by
  cases fuel with
  | zero => rfl
  | succ n => unfold extend; rw [if_neg (by omega)]

theorem segment_last (objs : List PObj) (window : Nat) (l : List Nat) : segment objs window 0 l = l.length := by
  unfold segment
  dsimp only
  rw [if_neg (by omega), Nat.zero_add, Nat.div_one]
  exact extend_len _ _ _

theorem partition_flatten (objs : List PObj) (window : Nat) : ∀ k l, (partition objs window (k + 1) l).flatten = l := by
  intro k
  induction k with
  | zero =>
    intro l
    unfold partition
    rw [segment_last]
    simp [partition]
  | succ k ih =>
    intro l
    unfold partition
    rw [List.flatten_cons, ih, List.take_append_drop]

theorem startWork_inv {E : Env} {objs : List PObj} {window depth : Nat} (hw : 0 < window) {l : List Nat} (hnd : l.Nodup) (hlt : ∀ i ∈ l, i < objs.length) :
    Inv E objs window depth (startWork E objs window l) [] (fun _ => 0) (fun _ => 0) 0 := by
  have hp : pending (startWork E objs window l) = l := by
    unfold pending startWork
    obtain ⟨k, hk⟩ : ∃ k, max 1 E.threads = k + 1 := ⟨max 1 E.threads - 1, by omega⟩
    rw [hk, List.flatMap_map]
    have := partition_flatten objs window k l
    rwa [← List.flatMap_id] at this
  refine ⟨by rw [List.nil_append, hp]; exact hnd, fun i hi => by rw [List.nil_append, hp] at hi; exact hlt i hi, (fun i _ => rfl), (fun i hi => by cases hi),
    (fun i b hb => by cases hb), fun _ _ => rfl, fun _ => Nat.zero_le _, (fun i hi => by cases hi), fun j hj => ?_⟩
  unfold startWork at hj
  obtain ⟨seg, _, rfl⟩ := List.mem_map.mp hj
  exact winOk_fresh hw _ _

theorem steps_inv {E : Env} {objs : List PObj} (hl : Listed E objs) {window depth : Nat} (hw : 0 < window) {a b : Work} (h : Steps E objs window depth a b)
    (ha : ∃ done rank dep R, Inv E objs window depth a done rank dep R) : ∃ done rank dep R, Inv E objs window depth b done rank dep R := by
  induction h with
  | refl => exact ha
  | tail _ h ih =>
    obtain ⟨done, rank, dep, R, H⟩ := ih
    exact step_inv hl hw H h

theorem sorted_candidates {E : Env} {objs : List PObj} {l : List Nat} (h : Sort.tsort (typeSizeSort objs) (candidates E objs) = .ok l) :
    l.Nodup ∧ (∀ i ∈ l, i < objs.length) ∧ l.Perm (candidates E objs) := by
  have hp : l.Perm (candidates E objs) := by
    rcases Sort.tsort_cases (typeSizeSort_order objs) (candidates E objs) with ⟨_, e⟩ | ⟨out, e, hs⟩
    · rw [e] at h; cases h
    · rw [e] at h; cases h
      exact hs.stable.perm
  have h1 : (candidates E objs).Nodup := List.Pairwise.filter _ List.nodup_range
  refine ⟨hp.nodup_iff.mpr h1, fun i hi => ?_, hp⟩
  have := hp.mem_iff.mp hi
  exact List.mem_range.mp (List.mem_filter.mp this).1

theorem deltaOk_zero (E : Env) (objs : List PObj) (i : Nat) : DeltaOk E objs i DState.zero := ⟨rfl, rfl⟩

theorem prepared_ready {E : Env} {objs : List PObj} (hl : Listed E objs) {ds : Nat → DState} (h : Prepared E objs ds) :
    ∃ rank dep, Ready E objs PACK_DEPTH ds rank dep := by
  cases h with
  | none => exact ⟨fun _ => 0, fun _ => 0, fun i => deltaOk_zero _ _ _, (fun i b hb => by cases hb), fun _ _ => rfl, fun _ => Nat.zero_le _⟩
  | @deltas l s hn hs hst hfin =>
    obtain ⟨h1, h2, _⟩ := sorted_candidates hs
    obtain ⟨done, rank, dep, R, H⟩ := steps_inv hl (Nat.succ_pos _) hst ⟨_, _, _, _, startWork_inv (Nat.succ_pos _) h1 h2⟩
    refine ⟨rank, dep, fun i => ?_, fun i b hb => ?_, H.root, H.depLe⟩
    · by_cases hi : i ∈ done
      · exact H.ok i hi
      · rw [H.fresh i hi]; exact deltaOk_zero _ _ _
    · obtain ⟨b1, b2, b3⟩ := H.base i b hb
      refine ⟨?_, H.lt b (List.mem_append_left _ b1), b2, b3⟩
      by_cases hi : i ∈ done
      · exact H.lt i (List.mem_append_left _ hi)
      · rw [H.fresh i hi] at hb; cases hb

end Verif.PackObjects
