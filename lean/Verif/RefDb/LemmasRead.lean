import Verif.RefDb.LemmasPack
/-! # A reader without locks -/
namespace Verif.RefDb
open Verif.Conc Verif.FileBuf Verif.RefPacked

variable {size : Nat} {tasks : Pid → Task} {rd : Bool} {p : Pid}

/-- nobody changes a reference -/
def ReadOnly (tasks : Pid → Task) : Prop := ∀ q, (∃ j, tasks q = .pack j) ∨ ∃ n, tasks q = .read n

/-- a reader keeps the guarantee in any company -/
theorem reader_any (n : Path) {s : FS} (hw : WF s) : OkP (Chg size tasks) rd p (fun _ _ => True) (lookupRef size n) s := by
  have hst : Stable (Chg size tasks) p (fun _ => True) := fun _ _ _ _ _ => trivial
  have hq : Quiet (Chg size tasks) p (fun _ => True) := quiet_of fun _ _ _ _ _ _ _ => trivial
  have hret : ∀ (r : Res RefVal) (s : FS), OkP (Chg size tasks) rd p (fun _ _ => True) (pure r) s :=
    fun r s => Ok.retI (fun _ => True) trivial (fun _ _ _ _ => trivial) (fun s _ => trivial)
  have hpk : ∀ s, WF s → OkP (Chg size tasks) rd p (fun _ _ => True) (lookupPacked size n) s := by
    intro s hw
    unfold lookupPacked
    refine Ok.cmd (J0 fun _ => True) ⟨hw, trivial⟩ (J0.stable hst) ?_
    intro s1 h1 r s2 he
    have he : xReadAll rd packedRefs s1 r s2 := he
    obtain ⟨rfl, _⟩ := he
    refine ⟨quiet_same hq h1.1 trivial, ?_⟩
    cases r with
    | enoent => exact hret _ _
    | fail => exact hret _ _
    | data b =>
      simp only
      split
      · exact hret _ _
      · exact hret _ _
      · exact hret _ _
  have hrest : ∀ (r : Res Bytes) s, WF s → OkP (Chg size tasks) rd p (fun _ _ => True) (match r with
      | .ok b =>
        match looseParse size b with
        | .err e => if e = ENOTFOUND then lookupPacked size n else pure (.err e)
        | r => pure r
      | .err e => if e = ENOTFOUND then lookupPacked size n else pure (.err e)
      | .ub => pure .ub) s := by
    intro r s hw
    cases r with
    | ok b =>
      simp only
      split
      · split
        · exact hpk s hw
        · exact hret _ _
      · exact hret _ _
    | err e =>
      simp only
      split
      · exact hpk s hw
      · exact hret _ _
    | ub => exact hret _ _
  have hb : ∀ (r : Res Bytes) (s : FS), WF s → OkP (Chg size tasks) rd p (fun r s => OkP (Chg size tasks) rd p (fun _ _ => True) (match r with
      | .ok b =>
        match looseParse size b with
        | .err e => if e = ENOTFOUND then lookupPacked size n else pure (.err e)
        | r => pure r
      | .err e => if e = ENOTFOUND then lookupPacked size n else pure (.err e)
      | .ub => pure .ub) s) (pure r) s :=
    fun r s hw => Ok.retI (J0 fun _ => True) ⟨hw, trivial⟩ (J0.stable hst) (fun s h => hrest r s h.1)
  unfold lookupRef
  refine Ok.bind ?_
  unfold readBuffer
  refine Ok.cmd (J0 fun _ => True) ⟨hw, trivial⟩ (J0.stable hst) ?_
  intro s1 h1 r s2 he
  have he : xStat rd n s1 r s2 := he
  obtain ⟨rfl, _⟩ := he
  refine ⟨quiet_same hq h1.1 trivial, ?_⟩
  cases r with
  | enoent => exact hb _ _ h1.1
  | fail => exact hb _ _ h1.1
  | size k =>
    refine Ok.cmd (J0 fun _ => True) h1 (J0.stable hst) ?_
    intro s3 h3 r s4 he
    have he : xReadN rd n k s3 r s4 := he
    obtain ⟨rfl, _⟩ := he
    refine ⟨quiet_same hq h3.1 trivial, ?_⟩
    cases r with
    | enoent => exact hb _ _ h3.1
    | fail => exact hb _ _ h3.1
    | data d => exact hb _ _ h3.1

/-- the value of `n` is `v`, and its loose file is `b` or gone -/
structure Sees (size : Nat) (n : Path) (v : Res RefVal) (c : Option Bytes) (s : FS) : Prop where
  value : val size s n = v
  file : s.content n = c ∨ s.content n = none

theorem Sees.stable (hro : ReadOnly tasks) {n : Path} (hn : RefName n) {v : Res RefVal} {c : Option Bytes} :
    Stable (Chg size tasks) p (Sees size n v c) := by
  rintro a b _ h ⟨q, hq, hb, hc⟩
  have hnw : ∀ j, tasks q ≠ .write j := by
    intro j hj
    rcases hro q with ⟨j', h⟩ | ⟨n', h⟩ <;> rw [hj] at h <;> cases h
  refine ⟨?_, ?_⟩
  · rcases hc.value n hn with e | ⟨_, ht⟩
    · rw [e]; exact h.value
    · exfalso
      rcases hro q with ⟨j', h⟩ | ⟨n', h⟩ <;> rw [h] at ht <;> exact ht
  · rcases hc.shrink hnw n hn with e | e
    · rw [e]; exact h.file
    · exact .inr e

/-- a reader among packers and readers gets the value -/
theorem reader_ok (hro : ReadOnly tasks) {n : Path} (hn : RefName n) {v : Res RefVal} (hrd : rd = false) {s : FS} (hw : WF s) (hv : val size s n = v) :
    OkP (Chg size tasks) rd p (fun r _ => r = v) (lookupRef size n) s := by
  have hst := fun c => Sees.stable (size := size) (p := p) hro hn (v := v) (c := c)
  have hq : ∀ c, Quiet (Chg size tasks) p (Sees size n v c) := fun c => quiet_of fun s s' _ h hb hd _ =>
    ⟨by rw [val_same (s := s) (hb.content_same hn.lock (by rw [hd])) (hb.content_same packed_not_lock (by rw [hd]))]; exact h.value,
      by rw [hb.content_same hn.lock (by rw [hd])]; exact h.file⟩
  have hret : ∀ (s : FS), OkP (Chg size tasks) rd p (fun r _ => r = v) (pure v) s :=
    fun s => Ok.retI (fun _ => True) trivial (fun _ _ _ _ => trivial) (fun s _ => rfl)
  have hpk : ∀ s, J0 (Sees size n v none) s → OkP (Chg size tasks) rd p (fun r _ => r = v) (lookupPacked size n) s := by
    intro s h
    unfold lookupPacked
    refine Ok.cmd _ h (J0.stable (hst none)) ?_
    intro s1 h1 r s2 he
    have he : xReadAll rd packedRefs s1 r s2 := he
    obtain ⟨rfl, he⟩ := he
    refine ⟨quiet_same (hq none) h1.1 h1.2, ?_⟩
    have hv1 := h1.2.value
    have h0 : s2.content n = none := by rcases h1.2.file with h | h <;> exact h
    unfold val at hv1
    rw [h0] at hv1
    cases r with
    | enoent =>
      have he : s2.content packedRefs = none := he
      rw [he] at hv1
      simp only at hv1 ⊢
      rw [hv1]; exact hret _
    | fail => have he : rd = true := he; rw [hrd] at he; cases he
    | data b =>
      have he : s2.content packedRefs = some b := he
      rw [he] at hv1
      simp only at hv1
      simp only
      split
      · rename_i hl; rw [hl] at hv1; simp only at hv1; rw [hv1]; exact hret _
      · rename_i hl; rw [hl] at hv1; simp only at hv1; rw [hv1]; exact hret _
      · rename_i hl; rw [hl] at hv1; simp only at hv1; rw [hv1]; exact hret _
  unfold lookupRef
  refine Ok.bind ?_
  unfold readBuffer
  refine Ok.cmd (J0 (Sees size n v (s.content n))) ⟨hw, hv, .inl rfl⟩ (J0.stable (hst _)) ?_
  intro s1 h1 r s2 he
  have he : xStat rd n s1 r s2 := he
  obtain ⟨rfl, he⟩ := he
  refine ⟨quiet_same (hq _) h1.1 h1.2, ?_⟩
  have hgone : ∀ s, J0 (Sees size n v none) s → OkP (Chg size tasks) rd p (fun (r : Res Bytes) s => OkP (Chg size tasks) rd p (fun r _ => r = v) (match r with
      | .ok b =>
        match looseParse size b with
        | .err e => if e = ENOTFOUND then lookupPacked size n else pure (.err e)
        | r => pure r
      | .err e => if e = ENOTFOUND then lookupPacked size n else pure (.err e)
      | .ub => pure .ub) s) (pure (.err ENOTFOUND)) s := by
    intro s h
    refine Ok.retI _ h (J0.stable (hst none)) (fun s h => ?_)
    simp only [if_true]
    exact hpk s h
  cases r with
  | enoent => exact hgone _ ⟨h1.1, h1.2.value, .inr he⟩
  | fail => have he : rd = true := he; rw [hrd] at he; cases he
  | size k =>
    obtain ⟨b, hb, rfl⟩ := he
    refine Ok.cmd (J0 (Sees size n v (some b))) ⟨h1.1, h1.2.value, .inl hb⟩ (J0.stable (hst _)) ?_
    intro s3 h3 r s4 he
    have he : xReadN rd n b.length s3 r s4 := he
    obtain ⟨rfl, he⟩ := he
    refine ⟨quiet_same (hq _) h3.1 h3.2, ?_⟩
    cases r with
    | enoent => exact hgone _ ⟨h3.1, h3.2.value, .inr he⟩
    | fail =>
      rcases he with he | ⟨b', hb', hlt⟩
      · rw [hrd] at he; cases he
      · rcases h3.2.file with h | h
        · rw [h] at hb'; cases hb'; omega
        · rw [h] at hb'; cases hb'
    | data d =>
      obtain ⟨b', hb', _, rfl⟩ := he
      have hbb : b' = b := by
        rcases h3.2.file with h | h
        · rw [h] at hb'; cases hb'; rfl
        · rw [h] at hb'; cases hb'
      subst hbb
      have hv3 := h3.2.value
      unfold val at hv3
      rw [hb'] at hv3
      simp only at hv3
      refine Ok.retI (fun _ => True) trivial (fun _ _ _ _ => trivial) (fun s _ => ?_)
      simp only [List.take_length]
      split
      · rename_i e hl
        have := looseParse_err hl
        subst this
        rw [if_neg (by decide), ← hv3, hl]
        exact Ok.retI (fun _ => True) trivial (fun _ _ _ _ => trivial) (fun s _ => rfl)
      · rw [hv3]; exact hret _

end Verif.RefDb
