import Verif.RefDb.LemmasPure
import Verif.RefDb.LemmasErr
import Verif.FileBuf.Client
/-! # The guarantee of every process of the reference database, and lookups under a lock -/
namespace Verif.RefDb
open Verif.Conc Verif.FileBuf Verif.RefPacked

theorem packed_not_lock : ¬ IsLock packedRefs := by
  rintro ⟨t, h⟩
  have := congrArg List.getLast? h
  unfold lockPath at this
  rw [List.getLast?_append] at this
  simp [packedRefs] at this

/-- what an event of a task says -/
def EvOk (size : Nat) (t : Task) (e : Event) (s s' : FS) : Prop :=
  match t, e with
  | .write j, .placed n => n = j.name ∧ Matches size j.oldId j.oldTarget (val size s n) ∧ val size s' n = .ok j.value
  | .write j, .same n => n = j.name ∧ Matches size j.oldId j.oldTarget (val size s n) ∧ Matches size j.value.id? j.value.target? (val size s n)
  | .delete j, .gone n => n = j.name ∧ val size s n = .err ENOTFOUND
  | .delete _, .placed n => n = packedRefs
  | .pack _, .placed n => n = packedRefs
  | _, _ => False

/-- what a process guarantees beyond `Base` -/
structure Chg (size : Nat) (tasks : Pid → Task) (q : Pid) (s s' : FS) : Prop where
  value : ∀ n, RefName n → val size s' n = val size s n ∨ ((∃ i, Hold q n i s) ∧ (tasks q).Trans size n (val size s n) (val size s' n))
  keep : ¬ (tasks q).rewrites → ∀ x, ¬ IsLock x → s'.content x = none → s.content x = none
  packed : ¬ (tasks q).rewrites → s'.content packedRefs = s.content packedRefs
  log : s'.log = s.log ∨ ∃ e, s'.log = s.log ++ [(q, e)] ∧ EvOk size (tasks q) e s s'
  shrink : (∀ j, tasks q ≠ .write j) → ∀ n, RefName n → s'.content n = s.content n ∨ s'.content n = none
  quiet : ∀ j, tasks q = .write j → s'.log ≠ s.log ++ [(q, .placed j.name)] → ∀ n, RefName n → val size s' n = val size s n

variable {size : Nat} {tasks : Pid → Task} {rd : Bool} {p : Pid}

theorem val_same {s s' : FS} {n : Path} (h1 : s'.content n = s.content n) (h2 : s'.content packedRefs = s.content packedRefs) :
    val size s' n = val size s n := by unfold val; rw [h1, h2]

/-- a step that changes only lock files -/
theorem Chg.inert {q : Pid} {s s' : FS} (hb : Base q s s') (hd : ∀ x, ¬ IsLock x → s'.dir x = s.dir x)
    (hl : s'.log = s.log ∨ ∃ e, s'.log = s.log ++ [(q, e)] ∧ EvOk size (tasks q) e s s') : Chg size tasks q s s' := by
  have hc : ∀ x, ¬ IsLock x → s'.content x = s.content x := fun x hx => hb.content_same hx (hd x hx)
  have hv : ∀ n, RefName n → val size s' n = val size s n := fun n hn => val_same (hc n hn.lock) (hc _ packed_not_lock)
  exact ⟨fun n hn => .inl (hv n hn), fun _ x hx h => by rw [← hc x hx]; exact h, fun _ => hc _ packed_not_lock, hl, fun _ n hn => .inl (hc n hn.lock), fun j _ _ n hn => hv n hn⟩

/-- the assertion `J` depends only on files that are not locks, on the log, and on facts about this process that locks elsewhere do not touch -/
theorem lockStep_of {J : FS → Prop} {t : Path}
    (h : ∀ s s', WF s → J s → Base p s s' → (∀ x, x ≠ lockPath t → s'.dir x = s.dir x) → s'.log = s.log → J s') :
    LockStep (Chg size tasks) p J t := by
  intro s s' hw hj hb hd hl
  exact ⟨Chg.inert hb (fun x hx => hd x (ne_lockPath hx)) (.inl hl), h s s' hw hj hb hd hl⟩

theorem quiet_of {J : FS → Prop} (h : ∀ s s', WF s → J s → Base p s s' → s'.dir = s.dir → s'.log = s.log → J s') :
    Quiet (Chg size tasks) p J := by
  intro s s' hw hj hb hd hl
  exact ⟨Chg.inert hb (fun x _ => by rw [hd]) (.inl hl), h s s' hw hj hb hd hl⟩

/-- the value of a locked reference is not changed by others -/
theorem val_held {q : Pid} (hq : q ≠ p) {n : Path} (hn : RefName n) {i : Ino} {s s' : FS} (hc : Chg size tasks q s s') (h : Hold p n i s) :
    val size s' n = val size s n := by
  rcases hc.value n hn with e | ⟨⟨j, hj⟩, _⟩
  · exact e
  · have := hj.1
    rw [h.1] at this
    cases this
    have := hj.2
    rw [h.2] at this
    cases this
    exact absurd rfl hq

/-! ## Reading a locked reference -/

/-- what reading a locked file can give -/
def ReadOk (rd : Bool) (c : Option Bytes) (r : Res Bytes) : Prop :=
  r = (match c with | some b => .ok b | none => .err ENOTFOUND) ∨ (rd = true ∧ r = .err (-1))

theorem readBuffer_ok {J : FS → Prop} (hst : Stable (Chg size tasks) p J) (hq : Quiet (Chg size tasks) p J) {n : Path} (hn : ¬ IsLock n)
    {i : Ino} {d : Bytes} {c : Option Bytes} (post : Res Bytes → FS → Prop)
    (hpost : ∀ r s, ReadOk rd c r → JH J p n i d c s → post r s) {s : FS} (h : JH J p n i d c s) :
    OkP (Chg size tasks) rd p post (readBuffer n) s := by
  have hS := JH.stable (i := i) (d := d) (c := c) hn hst
  have hret : ∀ r s, ReadOk rd c r → JH J p n i d c s → OkP (Chg size tasks) rd p post (pure r) s :=
    fun r s hr h => Ok.retI _ h hS (fun s h => hpost r s hr h)
  unfold readBuffer
  refine Ok.cmd _ h hS ?_
  intro s1 h1 r s2 he
  have he : xStat rd n s1 r s2 := he
  obtain ⟨rfl, he⟩ := he
  refine ⟨quiet_same hq h1.wf h1.j, ?_⟩
  cases r with
  | enoent =>
    have : c = none := by rw [← h1.content]; exact he
    subst this
    exact hret _ _ (.inl rfl) h1
  | fail => exact hret _ _ (.inr ⟨he, rfl⟩) h1
  | size k =>
    obtain ⟨b, hb, rfl⟩ := he
    have : c = some b := by rw [← h1.content]; exact hb
    subst this
    refine Ok.cmd _ h1 hS ?_
    intro s3 h3 r s4 he
    have he : xReadN rd n b.length s3 r s4 := he
    obtain ⟨rfl, he⟩ := he
    refine ⟨quiet_same hq h3.wf h3.j, ?_⟩
    cases r with
    | enoent =>
      have he : s4.content n = none := he
      rw [h3.content] at he; cases he
    | fail =>
      rcases he with he | ⟨b', hb', hlt⟩
      · exact hret _ _ (.inr ⟨he, rfl⟩) h3
      · rw [h3.content] at hb'; cases hb'; omega
    | data d' =>
      obtain ⟨b', hb', _, rfl⟩ := he
      rw [h3.content] at hb'; cases hb'
      exact hret _ _ (.inl (by simp)) h3

theorem lookupRef_ok {J : FS → Prop} (hst : Stable (Chg size tasks) p J) (hq : Quiet (Chg size tasks) p J) {n : Path} (hn : ¬ IsLock n)
    {i : Ino} {d : Bytes} {c : Option Bytes} {v : Res RefVal} (hv : ∀ s, J s → Hold p n i s → val size s n = v) (post : Res RefVal → FS → Prop)
    (hpost : ∀ r s, (r = v ∨ r = .err (-1)) → JH J p n i d c s → post r s) {s : FS} (h : JH J p n i d c s) :
    OkP (Chg size tasks) rd p post (lookupRef size n) s := by
  have hS := JH.stable (i := i) (d := d) (c := c) hn hst
  have hret : ∀ r s, (r = v ∨ r = .err (-1)) → JH J p n i d c s → OkP (Chg size tasks) rd p post (pure r) s :=
    fun r s hr h => Ok.retI _ h hS (fun s h => hpost r s hr h)
  unfold lookupRef
  refine Ok.bind (readBuffer_ok hst hq hn _ ?_ h)
  intro r s1 hr h1
  have hv1 := hv s1 h1.j h1.hold
  have hpk : ∀ s1, JH J p n i d c s1 → c = none → OkP (Chg size tasks) rd p post (lookupPacked size n) s1 := by
    intro s1 h1 hcn
    unfold lookupPacked
    refine Ok.cmd _ h1 hS ?_
    intro s3 h3 r s4 he
    have he : xReadAll rd packedRefs s3 r s4 := he
    obtain ⟨rfl, he⟩ := he
    refine ⟨quiet_same hq h3.wf h3.j, ?_⟩
    have hv3 := hv s4 h3.j h3.hold
    unfold val at hv3
    rw [h3.content, hcn] at hv3
    cases r with
    | enoent =>
      have he : s4.content packedRefs = none := he
      rw [he] at hv3
      exact hret _ _ (.inl hv3) h3
    | fail => exact hret _ _ (.inr rfl) h3
    | data b =>
      have he : s4.content packedRefs = some b := he
      rw [he] at hv3
      simp only at hv3
      simp only
      split
      · rename_i hl; rw [hl] at hv3; exact hret _ _ (.inl hv3) h3
      · rename_i hl; rw [hl] at hv3; exact hret _ _ (.inl hv3) h3
      · rename_i hl; rw [hl] at hv3; exact hret _ _ (.inl hv3) h3
  rcases hr with hr | ⟨_, hr⟩
  · cases c with
    | none =>
      simp only at hr
      subst hr
      exact hpk s1 h1 rfl
    | some b =>
      simp only at hr
      subst hr
      unfold val at hv1
      rw [h1.content] at hv1
      simp only at hv1
      simp only
      split
      · rename_i e hl
        have := looseParse_err hl
        subst this
        rw [if_neg (by decide)]
        exact hret _ _ (.inr rfl) h1
      · exact hret _ _ (.inl hv1) h1
  · subst hr
    simp only
    rw [if_neg (by decide)]
    exact hret _ _ (.inr rfl) h1

theorem cmpOldRef_ok {J : FS → Prop} (hst : Stable (Chg size tasks) p J) (hq : Quiet (Chg size tasks) p J) {n : Path} (hn : ¬ IsLock n)
    {i : Ino} {d : Bytes} {c : Option Bytes} {v : Res RefVal} (hv : ∀ s, J s → Hold p n i s → val size s n = v) (oldId oldTarget : Option Bytes)
    (post : Res Bool → FS → Prop)
    (hpost : ∀ r s, (r = .ok true → Matches size oldId oldTarget v) → (r = .ok false → ¬ Matches size oldId oldTarget v) → Neg r →
      JH J p n i d c s → post r s) {s : FS} (h : JH J p n i d c s) :
    OkP (Chg size tasks) rd p post (cmpOldRef size n oldId oldTarget) s := by
  have hS := JH.stable (i := i) (d := d) (c := c) hn hst
  unfold cmpOldRef
  split
  · exact Ok.retI _ h hS (fun s h => hpost _ s (fun _ => .inl ⟨rfl, rfl⟩) (fun e => by cases e) (Neg.ok _) h)
  · refine Ok.bind (lookupRef_ok hst hq hn hv _ ?_ h)
    intro r s1 hr h1
    have hneg : Neg r := by
      rcases hr with rfl | rfl
      · rw [← hv s1 h1.j h1.hold]; exact val_neg _ _ _
      · exact Neg.err (by decide)
    refine Ok.retI _ h1 hS (fun s h => hpost _ s ?_ ?_ ?_ h)
    · intro he
      rcases hr with rfl | rfl
      · exact cmpOld_true he
      · exact absurd he (by simp [cmpOld, ENOTFOUND])
    · intro he
      rcases hr with rfl | rfl
      · exact cmpOld_false he
      · exact absurd he (by simp [cmpOld, ENOTFOUND])
    · intro e he
      exact hneg e (cmpOld_err he)

end Verif.RefDb
