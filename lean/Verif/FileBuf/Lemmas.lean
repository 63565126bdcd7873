import Verif.FileBuf.Spec
/-! # What every process guarantees about locks and files, and the filebuf functions under it -/
namespace Verif.FileBuf
open Verif.Conc

theorem lockPath_inj {a b : Path} (h : lockPath a = lockPath b) : a = b := by
  unfold lockPath at h
  exact List.append_cancel_right h

theorem ne_lockPath {x t : Path} (h : ¬ IsLock x) : x ≠ lockPath t := fun e => h ⟨t, e⟩

/-- `p` holds the lock of `t`: the lock file is the one `p` created -/
def Hold (p : Pid) (t : Path) (i : Ino) (s : FS) : Prop := s.dir (lockPath t) = some i ∧ s.owner i = some p

/-- The discipline every step of `p` obeys. -/
structure Base (p : Pid) (s s' : FS) : Prop where
  wf : WF s → WF s'
  next_le : s.next ≤ s'.next
  owner_old : ∀ i, i < s.next → s'.owner i = s.owner i
  owner_new : ∀ i, s.next ≤ i → i < s'.next → s'.owner i = some p
  data_other : ∀ i, i < s.next → s.owner i ≠ some p → s'.data i = s.data i
  synced_other : ∀ i, i < s.next → s.owner i ≠ some p → s'.synced i = s.synced i
  /-- the content of a file in place is never modified -/
  placed : ∀ x i, ¬ IsLock x → s.dir x = some i → s'.data i = s.data i ∧ s'.synced i = s.synced i
  /-- a lock appears only where there was none, and is removed only by its creator -/
  lock : ∀ t, s'.dir (lockPath t) = s.dir (lockPath t) ∨
    (s.dir (lockPath t) = none ∧ ∃ i, s'.dir (lockPath t) = some i ∧ s.next ≤ i ∧ i < s'.next) ∨
    (s'.dir (lockPath t) = none ∧ ∃ i, Hold p t i s)
  /-- a file changes only while its lock is held, and only to the lock file or to nothing -/
  file : ∀ x, ¬ IsLock x → s'.dir x = s.dir x ∨ ∃ i, Hold p x i s ∧ (s'.dir x = none ∨ s'.dir x = some i)
  log : ∃ es : List Event, s'.log = s.log ++ es.map (fun e => (p, e))

theorem Base.hold {p q : Pid} (hpq : p ≠ q) {t : Path} {i : Ino} {s s' : FS} (hb : Base q s s') (hw : WF s) (h : Hold p t i s) : Hold p t i s' := by
  obtain ⟨h1, h2⟩ := h
  have hi := hw.bound _ _ h1
  refine ⟨?_, by rw [hb.owner_old i hi]; exact h2⟩
  rcases hb.lock t with e | ⟨e, _⟩ | ⟨_, j, e1, e2⟩
  · rw [e]; exact h1
  · rw [e] at h1; cases h1
  · rw [e1] at h1
    cases h1
    rw [h2] at e2
    cases e2
    exact absurd rfl hpq

theorem Base.data_mine {p q : Pid} (hpq : p ≠ q) {t : Path} {i : Ino} {s s' : FS} (hb : Base q s s') (hw : WF s) (h : Hold p t i s) :
    s'.data i = s.data i ∧ s'.synced i = s.synced i := by
  have hi := hw.bound _ _ h.1
  have : s.owner i ≠ some q := by rw [h.2]; intro e; cases e; exact hpq rfl
  exact ⟨hb.data_other i hi this, hb.synced_other i hi this⟩

theorem Base.file_held {p q : Pid} (hpq : p ≠ q) {t : Path} (ht : ¬ IsLock t) {i : Ino} {s s' : FS} (hb : Base q s s') (h : Hold p t i s) :
    s'.dir t = s.dir t := by
  rcases hb.file t ht with e | ⟨j, hj, _⟩
  · exact e
  · have := hj.1
    rw [h.1] at this
    cases this
    have := hj.2
    rw [h.2] at this
    cases this
    exact absurd rfl hpq

theorem Base.content_same {q : Pid} {t : Path} (ht : ¬ IsLock t) {s s' : FS} (hb : Base q s s') (hd : s'.dir t = s.dir t) :
    s'.content t = s.content t := by
  unfold FS.content
  rw [hd]
  cases h : s.dir t with
  | none => rfl
  | some i => simp [(hb.placed t i ht h).1]

theorem Base.content_held {p q : Pid} (hpq : p ≠ q) {t : Path} (ht : ¬ IsLock t) {i : Ino} {s s' : FS} (hb : Base q s s') (h : Hold p t i s) :
    s'.content t = s.content t := hb.content_same ht (hb.file_held hpq ht h)

/-! ## Elementary steps -/

theorem Base.refl (p : Pid) (s : FS) : Base p s s :=
  ⟨id, Nat.le_refl _, fun _ _ => rfl, fun i h1 h2 => absurd h2 (by omega), fun _ _ _ => rfl, fun _ _ _ => rfl, fun _ _ _ _ => ⟨rfl, rfl⟩,
    fun _ => .inl rfl, fun _ _ => .inl rfl, ⟨[], by simp⟩⟩

theorem upd_same {α β : Type} [DecidableEq α] (f : α → β) (a : α) (b : β) : upd f a b a = b := by simp [upd]
theorem upd_ne {α β : Type} [DecidableEq α] (f : α → β) {a x : α} (b : β) (h : x ≠ a) : upd f a b x = f x := by simp [upd, h]

theorem Base.creat (p : Pid) (t : Path) (s : FS) (hw : WF s) (hn : s.dir (lockPath t) = none) :
    Base p s { s with dir := upd s.dir (lockPath t) (some s.next), data := upd s.data s.next [], synced := upd s.synced s.next false,
                      owner := upd s.owner s.next (some p), next := s.next + 1 } := by
  have e1 : ∀ x i, upd s.dir (lockPath t) (some s.next) x = some i → (x = lockPath t ∧ i = s.next) ∨ (x ≠ lockPath t ∧ s.dir x = some i) := by
    intro x i h
    by_cases hx : x = lockPath t
    · subst hx; rw [upd_same] at h; cases h; left; exact ⟨rfl, rfl⟩
    · rw [upd_ne _ _ hx] at h; right; exact ⟨hx, h⟩
  refine ⟨?_, by simp, ?_, ?_, ?_, ?_, ?_, ?_, ?_, ⟨[], by simp⟩⟩
  · intro _
    constructor
    · intro x i h
      rcases e1 x i h with ⟨_, rfl⟩ | ⟨_, h⟩
      · simp
      · have := hw.bound x i h; exact Nat.lt_succ_of_lt this
    · intro x y i hx hy
      rcases e1 x i hx with ⟨hx1, hi⟩ | ⟨_, hx1⟩
      · rcases e1 y _ hy with ⟨hy1, _⟩ | ⟨_, hy1⟩
        · rw [hx1, hy1]
        · exact absurd (hw.bound y _ hy1) (by rw [hi]; exact Nat.lt_irrefl _)
      · rcases e1 y _ hy with ⟨hy1, hi⟩ | ⟨_, hy1⟩
        · exact absurd (hw.bound x _ hx1) (by rw [hi]; exact Nat.lt_irrefl _)
        · exact hw.inj x y i hx1 hy1
  · intro i hi; exact upd_ne _ _ (Nat.ne_of_lt hi)
  · intro i h1 h2
    simp only at h1 h2 ⊢
    have : i = s.next := by omega
    subst this; exact upd_same _ _ _
  · intro i hi _; exact upd_ne _ _ (Nat.ne_of_lt hi)
  · intro i hi _; exact upd_ne _ _ (Nat.ne_of_lt hi)
  · intro x i hx hi
    have := hw.bound x i hi
    exact ⟨upd_ne _ _ (Nat.ne_of_lt this), upd_ne _ _ (Nat.ne_of_lt this)⟩
  · intro u
    by_cases hu : u = t
    · subst hu
      right; left
      exact ⟨hn, s.next, upd_same _ _ _, Nat.le_refl _, by simp⟩
    · left
      exact upd_ne _ _ (fun e => hu (lockPath_inj e))
  · intro x hx
    left
    exact upd_ne _ _ (ne_lockPath hx)

/-- writing to or syncing one's own lock file -/
theorem Base.modify (p : Pid) (t : Path) (i : Ino) (s : FS) (hw : WF s) (h : Hold p t i s) (d : Bytes) (b : Bool) :
    Base p s { s with data := upd s.data i d, synced := upd s.synced i b } := by
  refine ⟨fun _ => ⟨hw.bound, hw.inj⟩, Nat.le_refl _, fun _ _ => rfl, fun j h1 h2 => absurd h2 (by simp; omega), ?_, ?_, ?_, fun _ => .inl rfl,
    fun _ _ => .inl rfl, ⟨[], by simp⟩⟩
  · intro j _ ho; exact upd_ne _ _ (fun e => ho (e ▸ h.2))
  · intro j _ ho; exact upd_ne _ _ (fun e => ho (e ▸ h.2))
  · intro x j hx hj
    have : j ≠ i := fun e => ne_lockPath hx (hw.inj x _ i (e ▸ hj) h.1)
    exact ⟨upd_ne _ _ this, upd_ne _ _ this⟩

/-- removing one's own lock -/
theorem Base.drop (p : Pid) (t : Path) (i : Ino) (s : FS) (hw : WF s) (h : Hold p t i s) :
    Base p s { s with dir := upd s.dir (lockPath t) none } := by
  have e1 : ∀ x j, upd s.dir (lockPath t) none x = some j → s.dir x = some j := by
    intro x j hj
    by_cases hx : x = lockPath t
    · subst hx; rw [upd_same] at hj; cases hj
    · rwa [upd_ne _ _ hx] at hj
  refine ⟨fun _ => ⟨fun x j hj => hw.bound x j (e1 x j hj), fun x y j hx hy => hw.inj x y j (e1 x j hx) (e1 y j hy)⟩, Nat.le_refl _,
    fun _ _ => rfl, fun j h1 h2 => absurd h2 (by simp; omega), fun _ _ _ => rfl, fun _ _ _ => rfl, fun _ _ _ _ => ⟨rfl, rfl⟩, ?_, ?_, ⟨[], by simp⟩⟩
  · intro u
    by_cases hu : u = t
    · subst hu; right; right; exact ⟨upd_same _ _ _, i, h⟩
    · left; exact upd_ne _ _ (fun e => hu (lockPath_inj e))
  · intro x hx; left; exact upd_ne _ _ (ne_lockPath hx)

/-- moving one's own lock file into place -/
theorem Base.replace (p : Pid) (t : Path) (ht : ¬ IsLock t) (i : Ino) (s : FS) (hw : WF s) (h : Hold p t i s) :
    Base p s { s with dir := upd (upd s.dir (lockPath t) none) t (some i), log := s.log ++ [(p, .placed t)] } := by
  have hne : t ≠ lockPath t := ne_lockPath ht
  have e1 : ∀ x j, upd (upd s.dir (lockPath t) none) t (some i) x = some j → (x = t ∧ j = i) ∨ (x ≠ t ∧ x ≠ lockPath t ∧ s.dir x = some j) := by
    intro x j hj
    by_cases hx : x = t
    · subst hx; rw [upd_same] at hj; cases hj; left; exact ⟨rfl, rfl⟩
    · rw [upd_ne _ _ hx] at hj
      by_cases hx2 : x = lockPath t
      · subst hx2; rw [upd_same] at hj; cases hj
      · rw [upd_ne _ _ hx2] at hj; right; exact ⟨hx, hx2, hj⟩
  refine ⟨fun _ => ⟨?_, ?_⟩, Nat.le_refl _,
    fun _ _ => rfl, fun j h1 h2 => absurd h2 (by simp; omega), fun _ _ _ => rfl, fun _ _ _ => rfl, fun _ _ _ _ => ⟨rfl, rfl⟩, ?_, ?_, ⟨[.placed t], by simp⟩⟩
  · intro x j hj
    rcases e1 x j hj with ⟨_, rfl⟩ | ⟨_, _, hj⟩
    · exact hw.bound _ _ h.1
    · exact hw.bound x j hj
  · intro x y j hx hy
    rcases e1 x j hx with ⟨hx1, hj⟩ | ⟨hx1, hx2, hx3⟩
    · rcases e1 y _ hy with ⟨hy1, _⟩ | ⟨_, hy2, hy3⟩
      · rw [hx1, hy1]
      · exact absurd (hw.inj y _ _ hy3 (by rw [hj]; exact h.1)) hy2
    · rcases e1 y _ hy with ⟨hy1, hj⟩ | ⟨_, hy2, hy3⟩
      · exact absurd (hw.inj x _ _ hx3 (by rw [hj]; exact h.1)) hx2
      · exact hw.inj x y j hx3 hy3
  · intro u
    have hut : lockPath u ≠ t := fun e => ht ⟨u, e.symm⟩
    by_cases hu : u = t
    · subst hu
      right; right
      exact ⟨by simp only; rw [upd_ne _ _ hut, upd_same], i, h⟩
    · left
      simp only
      rw [upd_ne _ _ hut, upd_ne _ _ (fun e => hu (lockPath_inj e))]
  · intro x hx
    by_cases hxt : x = t
    · subst hxt
      right
      exact ⟨i, h, .inr (upd_same _ _ _)⟩
    · left
      simp only
      rw [upd_ne _ _ hxt, upd_ne _ _ (ne_lockPath hx)]

/-- deleting a file while holding its lock -/
theorem Base.remove (p : Pid) (t : Path) (ht : ¬ IsLock t) (i : Ino) (s : FS) (hw : WF s) (h : Hold p t i s) :
    Base p s { s with dir := upd s.dir t none } := by
  have e1 : ∀ x j, upd s.dir t none x = some j → s.dir x = some j := by
    intro x j hj
    by_cases hx : x = t
    · subst hx; rw [upd_same] at hj; cases hj
    · rwa [upd_ne _ _ hx] at hj
  refine ⟨fun _ => ⟨fun x j hj => hw.bound x j (e1 x j hj), fun x y j hx hy => hw.inj x y j (e1 x j hx) (e1 y j hy)⟩, Nat.le_refl _,
    fun _ _ => rfl, fun j h1 h2 => absurd h2 (by simp; omega), fun _ _ _ => rfl, fun _ _ _ => rfl, fun _ _ _ _ => ⟨rfl, rfl⟩, ?_, ?_, ⟨[], by simp⟩⟩
  · intro u
    left
    exact upd_ne _ _ (fun e => ht ⟨u, e.symm⟩)
  · intro x hx
    by_cases hxt : x = t
    · subst hxt; right; exact ⟨i, h, .inl (upd_same _ _ _)⟩
    · left; exact upd_ne _ _ hxt

theorem Base.event (p : Pid) (e : Event) (s : FS) : Base p s { s with log := s.log ++ [(p, e)] } :=
  ⟨fun h => ⟨h.bound, h.inj⟩, Nat.le_refl _, fun _ _ => rfl, fun i h1 h2 => absurd h2 (by simp; omega), fun _ _ _ => rfl, fun _ _ _ => rfl,
    fun _ _ _ _ => ⟨rfl, rfl⟩, fun _ => .inl rfl, fun _ _ => .inl rfl, ⟨[e], by simp⟩⟩

/-! ## The filebuf functions

`Chg p` is whatever a caller wants to guarantee in addition; `J` is its own assertion about the state. -/

section
variable (Chg : Pid → FS → FS → Prop) (rd : Bool) (p : Pid)

/-- the full guarantee -/
def G (q : Pid) (s s' : FS) : Prop := Base q s s' ∧ Chg q s s'

abbrev rely : FS → FS → Prop := fun a b => ∃ q, q ≠ p ∧ G Chg q a b

abbrev OkP {α : Type} (post : α → FS → Prop) (P : P α) (s : FS) : Prop := Ok (exec ⟨false, rd⟩) p (rely Chg p) (G Chg p) post P s

/-- `J` is kept by the other processes -/
def Stable (J : FS → Prop) : Prop := ∀ a b, WF a → J a → rely Chg p a b → J b

/-- steps that leave the directory and the log alone are allowed and keep `J` -/
def Quiet (J : FS → Prop) : Prop := ∀ s s', WF s → J s → Base p s s' → s'.dir = s.dir → s'.log = s.log → Chg p s s' ∧ J s'

/-- creating or removing the lock of `t` is allowed and keeps `J` -/
def LockStep (J : FS → Prop) (t : Path) : Prop := ∀ s s', WF s → J s → Base p s s' → (∀ x, x ≠ lockPath t → s'.dir x = s.dir x) →
  s'.log = s.log → Chg p s s' ∧ J s'

variable {Chg rd p}

theorem LockStep.quiet {J : FS → Prop} {t : Path} (h : LockStep Chg p J t) : Quiet Chg p J :=
  fun s s' hw hj hb hd hl => h s s' hw hj hb (fun x _ => by rw [hd]) hl

/-- the assertion of a process that holds no lock -/
abbrev J0 (J : FS → Prop) (s : FS) : Prop := WF s ∧ J s

theorem J0.stable {J : FS → Prop} (hst : Stable Chg p J) : ∀ a b, J0 J a → rely Chg p a b → J0 J b := by
  rintro a b ⟨hw, hj⟩ hr
  have hr' := hr
  obtain ⟨q, _, hb, _⟩ := hr
  exact ⟨hb.wf hw, hst a b hw hj hr'⟩

/-- the assertion of a process that holds the lock of `t` and has written `d` to it -/
structure JH (J : FS → Prop) (p : Pid) (t : Path) (i : Ino) (d : Bytes) (c : Option Bytes) (s : FS) : Prop where
  wf : WF s
  j : J s
  hold : Hold p t i s
  data : s.data i = d
  content : s.content t = c

theorem JH.stable {J : FS → Prop} {t : Path} {i : Ino} {d : Bytes} {c : Option Bytes} (ht : ¬ IsLock t) (hst : Stable Chg p J) :
    ∀ a b, JH J p t i d c a → rely Chg p a b → JH J p t i d c b := by
  intro a b h hr
  have hr' := hr
  obtain ⟨q, hq, hb, _⟩ := hr
  exact ⟨hb.wf h.wf, hst a b h.wf h.j hr', hb.hold (fun e => hq e.symm) h.wf h.hold,
    by rw [(hb.data_mine (fun e => hq e.symm) h.wf h.hold).1]; exact h.data,
    by rw [hb.content_held (fun e => hq e.symm) ht h.hold]; exact h.content⟩

/-- writing to the lock file -/
theorem step_write {J : FS → Prop} (hq : Quiet Chg p J) {t : Path} (ht : ¬ IsLock t) {i : Ino} {d e : Bytes} {c : Option Bytes} {s s' : FS} {r : Bool}
    (h : JH J p t i d c s) (hx : xWrite i e s r s') :
    G Chg p s s' ∧ ∃ d', JH J p t i d' c s' ∧ (r = true → d' = d ++ e) := by
  cases r with
  | true =>
    have hx : s' = { s with data := upd s.data i (s.data i ++ e), synced := upd s.synced i false } := hx
    have hb := Base.modify p t i s h.wf h.hold (s.data i ++ e) false
    rw [← hx] at hb
    obtain ⟨h1, h2⟩ := hq s s' h.wf h.j hb (by rw [hx]) (by rw [hx])
    refine ⟨⟨hb, h1⟩, d ++ e, ⟨hb.wf h.wf, h2, ?_, ?_, ?_⟩, fun _ => rfl⟩
    · rw [hx]; exact h.hold
    · rw [hx]; simp [upd_same, h.data]
    · rw [hb.content_same ht (by rw [hx])]; exact h.content
  | false =>
    obtain ⟨k, hx⟩ : ∃ k, s' = { s with data := upd s.data i (s.data i ++ e.take k), synced := upd s.synced i false } := hx
    have hb := Base.modify p t i s h.wf h.hold (s.data i ++ e.take k) false
    rw [← hx] at hb
    obtain ⟨h1, h2⟩ := hq s s' h.wf h.j hb (by rw [hx]) (by rw [hx])
    refine ⟨⟨hb, h1⟩, d ++ e.take k, ⟨hb.wf h.wf, h2, ?_, ?_, ?_⟩, fun h => by cases h⟩
    · rw [hx]; exact h.hold
    · rw [hx]; simp [upd_same, h.data]
    · rw [hb.content_same ht (by rw [hx])]; exact h.content

theorem quiet_same {J : FS → Prop} (hq : Quiet Chg p J) {s : FS} (hw : WF s) (hj : J s) : G Chg p s s :=
  ⟨Base.refl p s, (hq s s hw hj (Base.refl p s) rfl rfl).1⟩

/-- `git_filebuf_cleanup` of a structure that does not own a lock (any more) -/
theorem cleanup_nolock {J : FS → Prop} (hst : Stable Chg p J) (hq : Quiet Chg p J) (f : FB) (hf : f.createdLock = false ∨ f.didRename = true)
    (post : Unit → FS → Prop) (hpost : ∀ s, J0 J s → post () s) {s : FS} (h : J0 J s) : OkP Chg rd p post (cleanup f) s := by
  have hdrop : ∀ s, J0 J s → OkP Chg rd p post (dropLock f) s := by
    intro s h
    have : dropLock f = Prog.ret () := by
      unfold dropLock
      rcases hf with hf | hf <;> simp [hf]
    rw [this]
    exact Ok.retI (J0 J) h (J0.stable hst) (fun s h => hpost s h)
  unfold cleanup
  refine Ok.bind ?_
  unfold closeFd
  split
  · refine Ok.cmd (J0 J) h (J0.stable hst) ?_
    intro s' h' r s'' he
    have he : s'' = s' := he
    subst he
    exact ⟨quiet_same hq h'.1 h'.2, Ok.retI (J0 J) h' (J0.stable hst) (fun s h => hdrop s h)⟩
  · exact Ok.retI (J0 J) h (J0.stable hst) (fun s h => hdrop s h)

/-- `git_filebuf_cleanup` of a structure that owns the lock removes it -/
theorem cleanup_lock {J : FS → Prop} (hst : Stable Chg p J) {t : Path} (ht : ¬ IsLock t) (hl : LockStep Chg p J t) (f : FB) (hf : f.path = t)
    (post : Unit → FS → Prop) (hpost : ∀ s, J0 J s → post () s) {i : Ino} {c : Option Bytes} {s : FS} (h : ∃ d, JH J p t i d c s) :
    OkP Chg rd p post (cleanup f) s := by
  have hq := hl.quiet
  have hend : ∀ s, J0 J s → OkP Chg rd p post (Prog.ret ()) s := fun s h => Ok.retI (J0 J) h (J0.stable hst) (fun s h => hpost s h)
  have hstab : ∀ a b, (∃ d, JH J p t i d c a) → rely Chg p a b → ∃ d, JH J p t i d c b := by
    rintro a b ⟨d, h⟩ hr; exact ⟨d, JH.stable ht hst a b h hr⟩
  have hdrop : ∀ s, (∃ d, JH J p t i d c s) → OkP Chg rd p post (dropLock f) s := by
    intro s h
    unfold dropLock
    split
    · refine Ok.cmd _ h hstab ?_
      intro s' h' r s'' he
      obtain ⟨rfl, hr⟩ : s'' = s' ∧ r = (s'.dir (lockPath f.path)).isSome := he
      obtain ⟨d, h'⟩ := h'
      refine ⟨quiet_same hq h'.wf h'.j, ?_⟩
      split
      · refine Ok.cmd _ ⟨d, h'⟩ hstab ?_
        rintro s1 ⟨d1, h1⟩ r2 s2 he2
        have he2 : xUnlink (lockPath f.path) s1 r2 s2 := he2
        cases r2 with
        | ok =>
          obtain ⟨_, e⟩ : s1.dir (lockPath f.path) ≠ none ∧ s2 = { s1 with dir := upd s1.dir (lockPath f.path) none } := he2
          rw [hf] at e
          have hb := Base.drop p t i s1 h1.wf h1.hold
          rw [← e] at hb
          obtain ⟨g1, g2⟩ := hl s1 s2 h1.wf h1.j hb (fun x hx => by rw [e]; exact upd_ne _ _ hx) (by rw [e])
          exact ⟨⟨hb, g1⟩, hend s2 ⟨hb.wf h1.wf, g2⟩⟩
        | enoent =>
          obtain ⟨_, e⟩ : s1.dir (lockPath f.path) = none ∧ s2 = s1 := he2
          subst e
          exact ⟨quiet_same hq h1.wf h1.j, hend s2 ⟨h1.wf, h1.j⟩⟩
        | fail =>
          have e : s2 = s1 := he2
          subst e
          exact ⟨quiet_same hq h1.wf h1.j, hend s2 ⟨h1.wf, h1.j⟩⟩
      · exact hend s'' ⟨h'.wf, h'.j⟩
    · obtain ⟨d, h⟩ := h
      exact hend s ⟨h.wf, h.j⟩
  unfold cleanup
  refine Ok.bind ?_
  unfold closeFd
  split
  · refine Ok.cmd _ h hstab ?_
    intro s' h' r s'' he
    have he : s'' = s' := he
    subst he
    obtain ⟨d, h'⟩ := h'
    exact ⟨quiet_same hq h'.wf h'.j, Ok.retI _ ⟨d, h'⟩ hstab (fun s h => hdrop s h)⟩
  · exact Ok.retI _ h hstab (fun s h => hdrop s h)

/-- the structure of a process that holds the lock of `t` through inode `i` -/
structure Owns (f : FB) (t : Path) (o : Opts) (i : Ino) : Prop where
  path : f.path = t
  opts : f.opts = o
  fd : f.fd = some i
  created : f.createdLock = true
  norename : f.didRename = false

/-- what `git_filebuf_open` starts a new file with -/
def initial (o : Opts) (c : Option Bytes) : Bytes := if o.append then c.getD [] else []

theorem fbOpen_ok {J : FS → Prop} (hst : Stable Chg p J) {t : Path} (ht : ¬ IsLock t) (hl : LockStep Chg p J t) (o : Opts)
    (post : Int × FB → FS → Prop) (herr : ∀ r f s, r < 0 → J0 J s → post (r, f) s)
    (hok : ∀ f i c s, Owns f t o i → f.buf = [] → f.lastError = false → f.fdOpen = true → JH J p t i (initial o c) c s → post (0, f) s)
    {s : FS} (h : J0 J s) : OkP Chg rd p post (fbOpen t o) s := by
  have hq := hl.quiet
  have hJ0 := J0.stable (J := J) hst
  -- what happens after lock_file
  have hfail : ∀ r f s, r < 0 → f.createdLock = false → J0 J s →
      OkP Chg rd p post (if r < 0 then (do cleanup f; pure (r, fbInit t o)) else pure (0, { f with createdLock := true })) s := by
    intro r f s hr hf h
    rw [if_pos hr]
    refine Ok.bind (cleanup_nolock hst hq f (.inl hf) _ ?_ h)
    intro s h
    exact Ok.retI (J0 J) h hJ0 (fun s h => herr r _ s hr h)
  unfold fbOpen
  refine Ok.bind ?_
  unfold lockFile
  refine Ok.cmd (J0 J) h hJ0 ?_
  intro s1 h1 r1 s1' he1
  obtain ⟨rfl, _⟩ : s1' = s1 ∧ r1 = (s1.dir _).isSome := he1
  refine ⟨quiet_same hq h1.1 h1.2, ?_⟩
  split
  · exact Ok.retI (J0 J) h1 hJ0 (fun s h => hfail _ _ s (by decide) rfl h)
  · refine Ok.cmd (J0 J) h1 hJ0 ?_
    intro s2 h2 r2 s3 he2
    have he2 : xCreat p (lockPath (fbInit t o).path) s2 r2 s3 := he2
    cases r2 with
    | eexist =>
      obtain ⟨rfl, _⟩ : s3 = s2 ∧ _ := he2
      exact ⟨quiet_same hq h2.1 h2.2, Ok.retI (J0 J) h2 hJ0 (fun s h => hfail _ _ s (by decide) rfl h)⟩
    | fail =>
      have he2 : s3 = s2 := he2
      subst he2
      exact ⟨quiet_same hq h2.1 h2.2, Ok.retI (J0 J) h2 hJ0 (fun s h => hfail _ _ s (by decide) rfl h)⟩
    | fd i =>
      obtain ⟨hn, hi, e⟩ := he2
      subst hi
      have hn : s2.dir (lockPath t) = none := hn
      have hb := Base.creat p t s2 h2.1 hn
      have e : s3 = _ := e
      rw [show (fbInit t o).path = t from rfl] at e
      rw [← e] at hb
      obtain ⟨g1, g2⟩ := hl s2 s3 h2.1 h2.2 hb (fun x hx => by rw [e]; exact upd_ne _ _ hx) (by rw [e])
      refine ⟨⟨hb, g1⟩, ?_⟩
      have hjh : ∃ c, JH J p t s2.next [] c s3 := by
        refine ⟨_, hb.wf h2.1, g2, ⟨?_, ?_⟩, ?_, rfl⟩
        · rw [e]; exact upd_same _ _ _
        · rw [e]; exact upd_same _ _ _
        · rw [e]; exact upd_same _ _ _
      obtain ⟨c, hjh⟩ := hjh
      generalize hi : s2.next = i at hjh
      have hfin : ∀ s, JH J p t i (initial o c) c s →
          OkP Chg rd p post (if (0 : Int) < 0 then (do cleanup { fbInit t o with fd := some i, fdOpen := true }; pure ((0 : Int), fbInit t o))
            else pure (0, { fbInit t o with fd := some i, fdOpen := true, createdLock := true })) s := by
        intro s h
        rw [if_neg (by decide)]
        exact Ok.retI _ h (JH.stable ht hst) (fun s h => hok _ i c s ⟨rfl, rfl, rfl, rfl, rfl⟩ rfl rfl rfl h)
      have hfail' : ∀ s d, JH J p t i d c s →
          OkP Chg rd p post (if (-1 : Int) < 0 then (do cleanup { fbInit t o with fd := some i, fdOpen := true }; pure ((-1 : Int), fbInit t o))
            else pure (0, { fbInit t o with fd := some i, fdOpen := true, createdLock := true })) s := by
        intro s d h
        exact hfail (-1) { fbInit t o with fd := some i, fdOpen := true } s (by decide) rfl ⟨h.wf, h.j⟩
      simp only
      split
      · -- append
        rename_i happ
        have happ : o.append = true := happ
        refine Ok.bind ?_
        unfold appendCopy
        refine Ok.cmd _ hjh (JH.stable ht hst) ?_
        intro s4 h4 r4 s4' he4
        obtain ⟨rfl, hr4⟩ : s4' = s4 ∧ r4 = (s4.dir t).isSome := he4
        refine ⟨quiet_same hq h4.wf h4.j, ?_⟩
        split
        · refine Ok.cmd _ h4 (JH.stable ht hst) ?_
          intro s5 h5 r5 s5' he5
          obtain ⟨rfl, he5⟩ : xReadAll rd t s5 r5 s5' := he5
          refine ⟨quiet_same hq h5.wf h5.j, ?_⟩
          cases r5 with
          | enoent => exact Ok.retI _ h5 (JH.stable ht hst) (fun s h => Ok.retI _ h (JH.stable ht hst) (fun s h => hfail' s _ h))
          | fail => exact Ok.retI _ h5 (JH.stable ht hst) (fun s h => Ok.retI _ h (JH.stable ht hst) (fun s h => hfail' s _ h))
          | data d =>
            have he5 : s5'.content t = some d := he5
            have hc : c = some d := by rw [← h5.content, he5]
            refine Ok.cmd _ h5 (JH.stable ht hst) ?_
            intro s6 h6 r6 s7 he6
            have he6 : xWrite i d s6 r6 s7 := he6
            obtain ⟨gg, d', hd', hr6⟩ := step_write hq ht h6 he6
            refine ⟨gg, ?_⟩
            split
            · rename_i hrt
              have : d' = initial o c := by
                rw [hr6 hrt, hc]; simp [initial, happ]
              rw [this] at hd'
              exact Ok.retI _ hd' (JH.stable ht hst) (fun s h => Ok.retI _ h (JH.stable ht hst) (fun s h => hfin s h))
            · exact Ok.retI _ hd' (JH.stable ht hst) (fun s h => Ok.retI _ h (JH.stable ht hst) (fun s h => hfail' s _ h))
        · rename_i hno
          have hc : c = none := by
            have : s4'.dir t = none := by
              rw [hr4] at hno; simpa using hno
            rw [← h4.content]; simp [FS.content, this]
          have e0 : ([] : Bytes) = initial o c := by simp [initial, happ, hc]
          rw [e0] at h4
          exact Ok.retI _ h4 (JH.stable ht hst) (fun s h => Ok.retI _ h (JH.stable ht hst) (fun s h => hfin s h))
      · rename_i happ
        have e0 : ([] : Bytes) = initial o c := by
          have : o.append = false := by have h : ¬ (o.append = true) := happ; simpa using h
          simp [initial, this]
        rw [e0] at hjh
        exact Ok.retI _ hjh (JH.stable ht hst) (fun s h => hfin s h)

/-! ### Writing -/

/-- the lock file and the buffer hold `sent`, unless an error is recorded -/
structure JW (J : FS → Prop) (p : Pid) (t : Path) (i : Ino) (c : Option Bytes) (f : FB) (sent : Bytes) (s : FS) : Prop where
  jh : ∃ d, JH J p t i d c s ∧ (f.lastError = false → d ++ f.buf = sent)

theorem JW.stable {J : FS → Prop} {t : Path} {i : Ino} {c : Option Bytes} {f : FB} {sent : Bytes} (ht : ¬ IsLock t) (hst : Stable Chg p J) :
    ∀ a b, JW J p t i c f sent a → rely Chg p a b → JW J p t i c f sent b := by
  rintro a b ⟨d, h, h2⟩ hr; exact ⟨d, JH.stable ht hst a b h hr, h2⟩

theorem flush_ok {J : FS → Prop} (hst : Stable Chg p J) (hq : Quiet Chg p J) {t : Path} (ht : ¬ IsLock t) {o : Opts} {i : Ino} {c : Option Bytes} (f : FB)
    (hf : Owns f t o i) (sent : Bytes) (post : Int × FB → FS → Prop)
    (hpost : ∀ r f' s, Owns f' t o i → f'.buf = [] → f'.fdOpen = f.fdOpen → (r < 0 → f'.lastError = true) → (r = 0 ∨ r < 0) →
      JW J p t i c f' sent s → post (r, f') s)
    {s : FS} (h : JW J p t i c f sent s) : OkP Chg rd p post (flushBuffer f) s := by
  have hS := fun f => JW.stable (J := J) (i := i) (c := c) (f := f) (sent := sent) ht hst
  unfold flushBuffer writeNormal
  split
  · rw [hf.fd]
    refine Ok.bind ?_
    refine Ok.cmd _ h (hS f) ?_
    rintro s1 ⟨d, h1, hd⟩ r s2 he
    have he : xWrite i f.buf s1 r s2 := he
    obtain ⟨gg, d', hd', hr⟩ := step_write hq ht h1 he
    refine ⟨gg, ?_⟩
    split
    · rename_i hrt
      have hj : JW J p t i c { f with buf := [] } sent s2 := ⟨d', hd', fun hle => by rw [hr hrt]; simpa using hd hle⟩
      refine Ok.retI _ hj (hS _) (fun s h => ?_)
      exact Ok.retI _ h (hS _) (fun s h => hpost 0 _ s ⟨hf.path, hf.opts, hf.fd, hf.created, hf.norename⟩ rfl rfl (by intro h; omega) (.inl rfl) h)
    · have hj : JW J p t i c { f with buf := [], fd := some i, lastError := true } sent s2 := ⟨d', hd', fun hle => by cases hle⟩
      refine Ok.retI _ hj (hS _) (fun s h => ?_)
      exact Ok.retI _ h (hS _) (fun s h => hpost (-1) _ s ⟨hf.path, hf.opts, rfl, hf.created, hf.norename⟩ rfl rfl (fun _ => rfl) (.inr (by decide)) h)
  · rename_i hlen
    have hb : f.buf = [] := by
      cases hb : f.buf with
      | nil => rfl
      | cons x l => rw [hb] at hlen; simp at hlen
    refine Ok.bind ?_
    refine Ok.retI _ h (hS f) (fun s h => ?_)
    have hj : JW J p t i c { f with buf := [] } sent s := by
      obtain ⟨d, h1, h2⟩ := h
      exact ⟨d, h1, fun hle => by have := h2 hle; rw [hb] at this; exact this⟩
    exact Ok.retI _ hj (hS _) (fun s h => hpost 0 _ s ⟨hf.path, hf.opts, hf.fd, hf.created, hf.norename⟩ rfl rfl (by intro h; omega) (.inl rfl) h)

theorem writeLoop_ok {J : FS → Prop} (hst : Stable Chg p J) (hq : Quiet Chg p J) {t : Path} (ht : ¬ IsLock t) {o : Opts} {i : Ino} {c : Option Bytes}
    (fuel : Nat) : ∀ (f : FB) (_ : Owns f t o i) (d sent : Bytes) (post : Int × FB → FS → Prop)
    (_ : ∀ r f' s, Owns f' t o i → f'.fdOpen = f.fdOpen → (r < 0 → f'.lastError = true) → (r = 0 ∨ r < 0) → JW J p t i c f' (sent ++ d) s → post (r, f') s)
    {s : FS} (_ : JW J p t i c f sent s), OkP Chg rd p post (writeLoop fuel f d) s := by
  induction fuel with
  | zero =>
    intro f hf d sent post hpost s h
    unfold writeLoop
    have hj : JW J p t i c { f with lastError := true } (sent ++ d) s := by
      obtain ⟨x, h1, _⟩ := h
      exact ⟨x, h1, fun h => by cases h⟩
    exact Ok.retI _ hj (JW.stable ht hst) (fun s h => hpost (-1) _ s ⟨hf.path, hf.opts, hf.fd, hf.created, hf.norename⟩ rfl (fun _ => rfl) (.inr (by decide)) h)
  | succ fuel ih =>
    intro f hf d sent post hpost s h
    unfold writeLoop
    simp only
    split
    · have hj : JW J p t i c { f with buf := f.buf ++ d } (sent ++ d) s := by
        obtain ⟨x, h1, h2⟩ := h
        exact ⟨x, h1, fun hle => by have := h2 hle; simp only; rw [← this]; simp⟩
      exact Ok.retI _ hj (JW.stable ht hst) (fun s h => hpost 0 _ s ⟨hf.path, hf.opts, hf.fd, hf.created, hf.norename⟩ rfl (by intro h; omega) (.inl rfl) h)
    · generalize hsp : f.opts.bufSize - f.buf.length = space
      have hj : JW J p t i c { f with buf := f.buf ++ d.take space } (sent ++ d.take space) s := by
        obtain ⟨x, h1, h2⟩ := h
        exact ⟨x, h1, fun hle => by have := h2 hle; simp only; rw [← this]; simp⟩
      refine Ok.bind (flush_ok (f := { f with buf := f.buf ++ d.take space }) hst hq ht ⟨hf.path, hf.opts, hf.fd, hf.created, hf.norename⟩ _ _ ?_ hj)
      intro r f' s' hf' hbuf hopen hr hr2 hw
      simp only
      split
      · rename_i hneg
        have hj' : JW J p t i c f' (sent ++ d) s' := by
          obtain ⟨x, h1, h2⟩ := hw
          exact ⟨x, h1, fun hle => by rw [hr hneg] at hle; cases hle⟩
        exact Ok.retI _ hj' (JW.stable ht hst) (fun s h => hpost (-1) _ s hf' hopen (fun _ => hr hneg) (.inr (by decide)) h)
      · refine ih f' hf' (d.drop space) (sent ++ d.take space) post ?_ hw
        intro r2 f2 s2 h1 h2 h3 h3' h4
        refine hpost r2 f2 s2 h1 (by rw [h2, hopen]) h3 h3' ?_
        rwa [List.append_assoc, List.take_append_drop] at h4

theorem fbWrite_ok {J : FS → Prop} (hst : Stable Chg p J) (hq : Quiet Chg p J) {t : Path} (ht : ¬ IsLock t) {o : Opts} {i : Ino} {c : Option Bytes} (f : FB)
    (hf : Owns f t o i) (d sent : Bytes) (hbuf : o.noBuffer = true → f.buf = []) (post : Int × FB → FS → Prop)
    (hpost : ∀ r f' s, Owns f' t o i → f'.fdOpen = f.fdOpen → (r < 0 → f'.lastError = true) → (r = 0 ∨ r < 0) → (o.noBuffer = true → f'.buf = []) →
      JW J p t i c f' (sent ++ d) s → post (r, f') s)
    {s : FS} (h : JW J p t i c f sent s) : OkP Chg rd p post (fbWrite f d) s := by
  unfold fbWrite
  split
  · rename_i hle
    have hj : JW J p t i c f (sent ++ d) s := by
      obtain ⟨x, h1, h2⟩ := h
      exact ⟨x, h1, fun h => by rw [hle] at h; cases h⟩
    exact Ok.retI _ hj (JW.stable ht hst) (fun s h => hpost (-1) _ s hf rfl (fun _ => hle) (.inr (by decide)) hbuf h)
  · split
    · rename_i hle hnb
      rw [hf.opts] at hnb
      have hb := hbuf hnb
      unfold writeNormal
      split
      · rw [hf.fd]
        refine Ok.cmd _ h (JW.stable ht hst) ?_
        rintro s1 ⟨x, h1, hd⟩ r s2 he
        have he : xWrite i d s1 r s2 := he
        obtain ⟨gg, d', hd', hr⟩ := step_write hq ht h1 he
        refine ⟨gg, ?_⟩
        split
        · rename_i hrt
          have hj : JW J p t i c f (sent ++ d) s2 := ⟨d', hd', fun hle => by
            rw [hr hrt, hb]; have := hd hle; rw [hb] at this; rw [← this]; simp⟩
          exact Ok.retI _ hj (JW.stable ht hst) (fun s h => hpost 0 _ s hf rfl (by intro h; omega) (.inl rfl) hbuf h)
        · have hj : JW J p t i c { f with fd := some i, lastError := true } (sent ++ d) s2 := ⟨d', hd', fun hle => by cases hle⟩
          exact Ok.retI _ hj (JW.stable ht hst) (fun s h => hpost (-1) _ s ⟨hf.path, hf.opts, rfl, hf.created, hf.norename⟩ rfl (fun _ => rfl)
            (.inr (by decide)) (fun _ => hb) h)
      · rename_i hlen
        have hdn : d = [] := by
          cases d with
          | nil => rfl
          | cons x l => simp at hlen
        have hj : JW J p t i c f (sent ++ d) s := by rw [hdn, List.append_nil]; exact h
        exact Ok.retI _ hj (JW.stable ht hst) (fun s h => hpost 0 _ s hf rfl (by intro h; omega) (.inl rfl) hbuf h)
    · rename_i hle hnb
      refine writeLoop_ok hst hq ht _ f hf d sent post ?_ h
      intro r f' s h1 h2 h3 h3' h4
      exact hpost r f' s h1 h2 h3 h3' (fun hn => by rw [hf.opts] at hnb; exact absurd hn hnb) h4

theorem fbPrintf_ok {J : FS → Prop} (hst : Stable Chg p J) (hq : Quiet Chg p J) {t : Path} (ht : ¬ IsLock t) {o : Opts} {i : Ino} {c : Option Bytes} (f : FB)
    (hf : Owns f t o i) (d sent : Bytes) (_hnb : o.noBuffer = false) (post : Int × FB → FS → Prop)
    (hpost : ∀ r f' s, Owns f' t o i → f'.fdOpen = f.fdOpen → (r < 0 → f'.lastError = true) → (r = 0 ∨ r < 0) → JW J p t i c f' (sent ++ d) s → post (r, f') s)
    {s : FS} (h : JW J p t i c f sent s) : OkP Chg rd p post (fbPrintf f d) s := by
  have hadd : ∀ (f : FB) s, JW J p t i c f sent s → JW J p t i c { f with buf := f.buf ++ d } (sent ++ d) s := by
    rintro f s ⟨x, h1, h2⟩
    exact ⟨x, h1, fun hle => by have := h2 hle; simp only; rw [← this]; simp⟩
  unfold fbPrintf
  split
  · rename_i hle
    have hj : JW J p t i c f (sent ++ d) s := by
      obtain ⟨x, h1, h2⟩ := h
      exact ⟨x, h1, fun h => by rw [hle] at h; cases h⟩
    exact Ok.retI _ hj (JW.stable ht hst) (fun s h => hpost (-1) _ s hf rfl (fun _ => hle) (.inr (by decide)) h)
  · split
    · exact Ok.retI _ (hadd f s h) (JW.stable ht hst) (fun s h => hpost 0 _ s ⟨hf.path, hf.opts, hf.fd, hf.created, hf.norename⟩ rfl
        (by intro h; omega) (.inl rfl) h)
    · refine Ok.bind (flush_ok hst hq ht f hf sent _ ?_ h)
      intro r f' s' hf' hbuf hopen hr hr2 hw
      simp only
      split
      · rename_i hneg
        have hj' : JW J p t i c f' (sent ++ d) s' := by
          obtain ⟨x, h1, h2⟩ := hw
          exact ⟨x, h1, fun hle => by rw [hr hneg] at hle; cases hle⟩
        exact Ok.retI _ hj' (JW.stable ht hst) (fun s h => hpost (-1) _ s hf' hopen (fun _ => hr hneg) (.inr (by decide)) h)
      · split
        · exact Ok.retI _ (hadd f' s' hw) (JW.stable ht hst) (fun s h => hpost 0 _ s ⟨hf'.path, hf'.opts, hf'.fd, hf'.created, hf'.norename⟩ hopen
            (by intro h; omega) (.inl rfl) h)
        · refine fbWrite_ok hst hq ht f' hf' d sent (fun _ => hbuf) post ?_ hw
          intro r2 f2 s2 h1 h2 h3 h3' _ h4
          exact hpost r2 f2 s2 h1 (by rw [h2, hopen]) h3 h3' h4

/-! ### Committing -/

/-- the state just after the lock file was moved into place -/
def moved (p : Pid) (t : Path) (i : Ino) (s : FS) : FS :=
  { s with dir := upd (upd s.dir (lockPath t) none) t (some i), log := s.log ++ [(p, .placed t)] }

theorem fbCommit_ok {J J' : FS → Prop} (hst : Stable Chg p J) (hst' : Stable Chg p J') {t : Path} (ht : ¬ IsLock t) (hl : LockStep Chg p J t)
    (hq' : Quiet Chg p J') {o : Opts} {i : Ino} {c : Option Bytes} (f : FB) (hf : Owns f t o i) (sent : Bytes)
    (hren : ∀ s, JH J p t i sent c s → (o.fsync = true → s.synced i = true) → Base p s (moved p t i s) → Chg p s (moved p t i s) ∧ J' (moved p t i s))
    (post : Int → FS → Prop) (herr : ∀ s, J0 J s → post (-1) s) (hok : ∀ s, J0 J' s → post 0 s)
    {s : FS} (h : JW J p t i c f sent s) : OkP Chg rd p post (fbCommit f) s := by
  have hq := hl.quiet
  have hfail : ∀ (f : FB) s, f.path = t → (∃ d, JH J p t i d c s) → OkP Chg rd p post (commitFail f) s := by
    intro f s hf h
    unfold commitFail
    refine Ok.bind (cleanup_lock hst ht hl f hf _ ?_ h)
    intro s h
    exact Ok.retI _ h (J0.stable hst) (fun s h => herr s h)
  unfold fbCommit
  refine Ok.bind (flush_ok hst hq ht f hf sent _ ?_ h)
  intro r f' s hf' hbuf hopen hr _ hw
  simp only
  unfold commitTail
  split
  · obtain ⟨d, h1, _⟩ := hw
    exact hfail f' s hf'.path ⟨d, h1⟩
  · rename_i hle
    have hle : f'.lastError = false := by simpa using hle
    rw [hf'.fd]
    obtain ⟨d, h1, h2⟩ := hw
    have hd : d = sent := by have := h2 hle; rw [hbuf] at this; simpa using this
    subst hd
    -- after the sync
    let I : FS → Prop := fun s => JH J p t i d c s ∧ (o.fsync = true → s.synced i = true)
    have hI : ∀ a b, I a → rely Chg p a b → I b := by
      rintro a b ⟨h, hs⟩ hr
      refine ⟨JH.stable ht hst a b h hr, fun ho => ?_⟩
      obtain ⟨q, hq, hb, _⟩ := hr
      rw [(hb.data_mine (fun e => hq e.symm) h.wf h.hold).2]; exact hs ho
    have hfin : ∀ s, J0 J' s → OkP Chg rd p post (do cleanup { f' with fdOpen := false, fd := none, didRename := true }; pure 0) s := by
      intro s h
      refine Ok.bind (cleanup_nolock hst' hq' _ (.inr rfl) _ ?_ h)
      intro s h
      exact Ok.retI _ h (J0.stable hst') (fun s h => hok s h)
    have hrest : ∀ s, I s → OkP Chg rd p post (do
        let c ← sClose i
        if c then commitRename { f' with fdOpen := false, fd := none } else commitFail { f' with fdOpen := false }) s := by
      intro s h
      refine Ok.cmd I h hI ?_
      intro s1 h1 r1 s1' he1
      have he1 : s1' = s1 := he1
      subst he1
      refine ⟨quiet_same hq h1.1.wf h1.1.j, ?_⟩
      split
      · unfold commitRename
        refine Ok.cmd I h1 hI ?_
        intro s2 h2 r2 s3 he2
        have he2 : xRename p (lockPath f'.path) f'.path s2 r2 s3 := he2
        rw [hf'.path] at he2
        cases r2 with
        | false =>
          have he2 : s3 = s2 := he2
          subst he2
          refine ⟨quiet_same hq h2.1.wf h2.1.j, ?_⟩
          exact hfail _ _ hf'.path ⟨d, h2.1⟩
        | true =>
          obtain ⟨j, hj, e⟩ : ∃ j, s2.dir (lockPath t) = some j ∧ s3 = { s2 with dir := upd (upd s2.dir (lockPath t) none) t (some j), log := s2.log ++ [(p, .placed t)] } := he2
          have : j = i := by have := h2.1.hold.1; rw [hj] at this; cases this; rfl
          subst this
          have e : s3 = moved p t j s2 := e
          have hb := Base.replace p t ht j s2 h2.1.wf h2.1.hold
          obtain ⟨g1, g2⟩ := hren s2 h2.1 h2.2 hb
          rw [e]
          have h3 : J0 J' (moved p t j s2) := ⟨hb.wf h2.1.wf, g2⟩
          refine ⟨⟨hb, g1⟩, ?_⟩
          simp only [if_true]
          unfold syncParent
          split
          · refine Ok.cmd (J0 J') h3 (J0.stable hst') ?_
            intro s4 h4 r4 s4' he4
            obtain ⟨rfl, hr4⟩ : s4' = s4 ∧ (false = false → r4 = true) := he4
            refine ⟨quiet_same hq' h4.1 h4.2, ?_⟩
            cases r4 with
            | true => exact hfin s4' h4
            | false => exact absurd (hr4 rfl) (by intro e; cases e)
          · exact hfin _ h3
      · exact hfail _ _ hf'.path ⟨d, h1.1⟩
    simp only
    refine Ok.bind ?_
    unfold syncFile
    split
    · refine Ok.act _ h1 (JH.stable ht hst) ?_
      intro s2 h2 r2 s3 he2
      have he2 : xFsync i s2 r2 s3 := he2
      cases r2 with
      | false =>
        have he2 : s3 = s2 := he2
        subst he2
        refine ⟨quiet_same hq h2.wf h2.j, Ok.retI _ h2 (JH.stable ht hst) (fun s h => ?_)⟩
        exact hfail _ s hf'.path ⟨d, h⟩
      | true =>
        have e : s3 = { s2 with synced := upd s2.synced i true } := he2
        have hb := Base.modify p t i s2 h2.wf h2.hold (s2.data i) true
        have e2 : ({ s2 with data := upd s2.data i (s2.data i), synced := upd s2.synced i true } : FS) = s3 := by
          rw [e]
          congr 1
          funext x
          by_cases hx : x = i
          · subst hx; exact upd_same _ _ _
          · exact upd_ne _ _ hx
        rw [e2] at hb
        obtain ⟨g1, g2⟩ := hq s2 s3 h2.wf h2.j hb (by rw [e]) (by rw [e])
        refine ⟨⟨hb, g1⟩, ?_⟩
        have h3 : I s3 := by
          refine ⟨⟨hb.wf h2.wf, g2, by rw [e]; exact h2.hold, by rw [e]; exact h2.data, ?_⟩, fun _ => by rw [e]; exact upd_same _ _ _⟩
          rw [hb.content_same ht (by rw [e])]; exact h2.content
        exact Ok.retI I h3 hI (fun s h => hrest s h)
    · rename_i hns
      rw [hf'.opts] at hns
      exact Ok.retI I ⟨h1, fun ho => absurd ho hns⟩ hI (fun s h => hrest s h)

end
end Verif.FileBuf
