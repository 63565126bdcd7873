import Verif.RefDb.Spec
/-! # Error codes of lookups are negative -/
namespace Verif.RefDb
open Verif.RefPacked

/-- every error of this result is a negative number -/
def Neg {α : Type} (r : Res α) : Prop := ∀ e, r = .err e → e < 0

theorem Neg.ok {α : Type} (a : α) : Neg (Res.ok a) := by intro e h; cases h
theorem Neg.ub {α : Type} : Neg (Res.ub : Res α) := by intro e h; cases h
theorem Neg.err {α : Type} {e : Int} (h : e < 0) : Neg (Res.err e : Res α) := by intro e' h'; cases h'; exact h

theorem Neg.bind {α β : Type} {r : Res α} {f : α → Res β} (h : Neg r) (hf : ∀ a, Neg (f a)) : Neg (r >>= f) := by
  cases r with
  | ok a => exact hf a
  | err e => intro e' h'; cases h'; exact h e rfl
  | ub => exact Neg.ub

theorem memchr_neg (b : Bytes) (c : UInt8) (n pos : Nat) : Neg (memchr b c pos n) := by
  induction n generalizing pos with
  | zero => exact Neg.ok _
  | succ n ih => unfold memchr; split; exact Neg.ub; split; exact Neg.ok _; exact ih _

theorem memrchr_neg (b : Bytes) (c : UInt8) (lo n : Nat) : Neg (memrchr b c lo n) := by
  induction n with
  | zero => exact Neg.ok _
  | succ n ih => unfold memrchr; split; exact Neg.ub; split; exact Neg.ok _; exact ih

theorem startOfRecord_neg (b : Bytes) (buf fuel p : Nat) : Neg (startOfRecord b buf fuel p) := by
  induction fuel generalizing p with
  | zero => exact Neg.ub
  | succ n ih =>
    unfold startOfRecord
    refine (memrchr_neg _ _ _ _).bind fun a => ?_
    split; exact Neg.ok _; split; exact Neg.ub; split; exact ih _; exact Neg.ok _

theorem endOfRecord_neg (b : Bytes) (stop fuel p : Nat) : Neg (endOfRecord b stop fuel p) := by
  induction fuel generalizing p with
  | zero => exact Neg.ub
  | succ n ih =>
    unfold endOfRecord
    refine (memchr_neg _ _ _ _).bind fun a => ?_
    split; exact Neg.ok _; split
    · split; exact Neg.ub; split; exact ih _; exact Neg.ok _
    · exact Neg.ok _

theorem slice_neg (b : Bytes) (i n : Nat) : Neg (slice b i n) := by
  unfold slice; split; exact Neg.ok _; exact Neg.ub

theorem cmpRecord_neg (size : Nat) (b : Bytes) (r a : Nat) (n : Bytes) : Neg (cmpRecord size b r a n) := by
  unfold cmpRecord
  split; exact Neg.ok _
  refine (memchr_neg _ _ _ _).bind fun x => ?_
  refine (slice_neg _ _ _).bind fun x => ?_
  dsimp only
  repeat' (first | exact Neg.ok _ | split)

theorem prefixLoop_neg (n p : Nat) (id s : Bytes) : Neg (Oid.prefixLoop n p id s) := by
  induction n generalizing p id s with
  | zero => unfold Oid.prefixLoop; exact Neg.ok _
  | succ n ih =>
    cases s with
    | nil => exact Neg.ub
    | cons c s =>
      unfold Oid.prefixLoop
      simp only
      split
      · exact Neg.err (by decide)
      · exact ih _ _ _

theorem fromPrefix_neg (size : Nat) (b : Bytes) (n : Nat) : Neg (Oid.fromPrefix size b n) := by
  unfold Oid.fromPrefix
  split; exact Neg.err (by decide)
  split; exact Neg.err (by decide)
  exact prefixLoop_neg _ _ _ _

theorem readRecord_neg (size : Nat) (b : Bytes) (r : Nat) : Neg (readRecord size b r) := by
  unfold readRecord
  split; exact Neg.err (by decide)
  refine (fromPrefix_neg _ _ _).bind fun x => ?_
  refine (memchr_neg _ _ _ _).bind fun y => ?_
  split; exact Neg.err (by decide)
  split
  · split; exact Neg.ub
    split
    · split; exact Neg.err (by decide)
      exact (fromPrefix_neg _ _ _).bind fun _ => Neg.ok _
    · exact Neg.ok _
  · exact Neg.ok _

theorem searchLoop_neg (size : Nat) (b n : Bytes) (fuel l r : Nat) : Neg (searchLoop size b n fuel l r) := by
  induction fuel generalizing l r with
  | zero => exact Neg.ub
  | succ k ih =>
    unfold searchLoop
    split
    · refine (startOfRecord_neg _ _ _ _).bind fun x => ?_
      refine (cmpRecord_neg _ _ _ _ _).bind fun y => ?_
      split
      · exact (endOfRecord_neg _ _ _ _).bind fun _ => ih _ _
      · split; exact ih _ _; exact readRecord_neg _ _ _
    · exact Neg.err (by decide)

theorem skipHeader_neg (b : Bytes) (fuel l : Nat) : Neg (skipHeader b fuel l) := by
  induction fuel generalizing l with
  | zero => exact Neg.ub
  | succ k ih =>
    unfold skipHeader
    split
    · split; exact Neg.ub
      split
      · refine (memchr_neg _ _ _ _).bind fun y => ?_
        split; exact Neg.err (by decide); exact ih _
      · exact Neg.ok _
    · exact Neg.ok _

theorem packedReload_neg (size : Nat) (b : Bytes) : Neg (packedReload size b) := by
  have hp : ∀ s, Neg (reloadPeel size b s) := by
    intro s
    unfold reloadPeel
    split
    · refine (fromPrefix_neg _ _ _).bind fun y => ?_
      simp only
      split
      · split; exact Neg.err (by decide); exact Neg.ok _
      · exact Neg.ok _
    · exact Neg.ok _
  have hl : ∀ f s c, Neg (reloadLoop size b f s c) := by
    intro f
    induction f with
    | zero => intro s c; exact Neg.ub
    | succ f ih =>
      intro s c
      unfold reloadLoop
      split
      · refine (fromPrefix_neg _ _ _).bind fun y => ?_
        split
        · split; exact Neg.err (by decide)
          exact (hp _).bind fun _ => ih _ _
        · exact Neg.err (by decide)
      · exact Neg.ok _
  have hh : ∀ f s, Neg (reloadHeader b f s) := by
    intro f
    induction f with
    | zero => intro s; exact Neg.ub
    | succ f ih =>
      intro s
      unfold reloadHeader
      split
      · split; exact Neg.err (by decide); exact ih _
      · exact Neg.ok _
  unfold packedReload
  refine Neg.bind ?_ fun _ => (hh _ _).bind fun _ => hl _ _ _
  unfold setPeelingMode
  split
  · simp only
    split; exact Neg.ok _; exact Neg.err (by decide)
  · exact Neg.ok _

theorem lookup_neg (size : Nat) (b n : Bytes) (w : Bool) : Neg (lookup size b n w) := by
  unfold lookup
  split
  · exact (skipHeader_neg _ _ _).bind fun _ => searchLoop_neg _ _ _ _ _ _
  · refine (packedReload_neg _ _).bind fun _ => ?_
    split; exact Neg.ok _; exact Neg.err (by decide)

theorem looseParseOid_err {size : Nat} {b : Bytes} {e : Int} (h : looseParseOid size b = .err e) : e = -1 := by
  unfold looseParseOid at h
  split at h
  · cases h; rfl
  · split at h
    · split at h <;> cases h; rfl
    · cases h
    · cases h; rfl
    · cases h

theorem looseParse_err {size : Nat} {b : Bytes} {e : Int} (h : looseParse size b = .err e) : e = -1 := by
  unfold looseParse at h
  split at h
  · split at h <;> cases h; rfl
  · split at h
    · cases h
    · rename_i h'; cases h; exact looseParseOid_err h'
    · cases h

theorem val_neg (size : Nat) (s : FileBuf.FS) (n : FileBuf.Path) : Neg (val size s n) := by
  unfold val
  split
  · intro e h; rw [looseParse_err h]; decide
  · split
    · exact Neg.err (by decide)
    · split
      · exact Neg.ok _
      · rename_i h
        exact Neg.err (lookup_neg _ _ _ _ _ h)
      · exact Neg.ub

end Verif.RefDb
