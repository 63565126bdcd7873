import Verif.FileBuf.Model
/-! # What "replaced atomically" means

Read this together with the definition of `exec` (the system calls) and `Job.run` (the client). -/
namespace Verif.FileBuf
open Verif.Conc

/-- a path that ends in ".lock" -/
def IsLock (x : Path) : Prop := ∃ t, x = lockPath t

/-- names and files correspond one to one (no hard links), and inode numbers below `next` are the ones in use -/
structure WF (s : FS) : Prop where
  bound : ∀ x i, s.dir x = some i → i < s.next
  inj : ∀ x y i, s.dir x = some i → s.dir y = some i → x = y

/-- A file system before any of the processes has done anything; it may contain any files, including lock files left over by others. -/
structure Fresh (s : FS) : Prop where
  wf : WF s
  owner : ∀ i, s.owner i = none
  log : s.log = []

/-- the content a job gives to its file when the old content is `old` -/
def newContent (j : Job) (old : Option Bytes) : Bytes := (if j.opts.append then old.getD [] else []) ++ j.pieces.flatten

/-- all processes run their job at once, on the file system `fs` -/
def start (jobs : Pid → Job) (fs : FS) : Config Cmd R FS Int := ⟨fs, fun p => (jobs p).run⟩

/-- The contents a file can have: the one it started with, and after it, complete contents written by jobs on that path, one after the
other. -/
inductive Content (jobs : Pid → Job) (fs : FS) (x : Path) : Option Bytes → Prop where
  | old : Content jobs fs x (fs.content x)
  | new {c : Option Bytes} (p : Pid) (h : Content jobs fs x c) (hp : (jobs p).path = x) : Content jobs fs x (some (newContent (jobs p) c))

/-- Mutual exclusion, read off the log: when somebody acquires a path that somebody acquired before, the first one has begun to release
it in between. -/
def Exclusive (log : List (Pid × Event)) : Prop :=
  ∀ A B C p q t, log = A ++ (p, .acquired t) :: (B ++ (q, .acquired t) :: C) → (p, .releasing t) ∈ B

/-! ## An executable scheduler, for concrete runs -/

/-- one answer of the system to each command: success, unless `fail` is set -/
def answer (fail : Bool) (p : Pid) (c : Cmd) (s : FS) : R c × FS :=
  match c with
  | .exist x => ((s.dir x).isSome, s)
  | .creat x =>
    match fail, s.dir x with
    | true, _ => (CreatRes.fail, s)
    | false, some _ => (CreatRes.eexist, s)
    | false, none => (CreatRes.fd s.next,
        { s with dir := upd s.dir x (some s.next), data := upd s.data s.next [], synced := upd s.synced s.next false,
                 owner := upd s.owner s.next (some p), next := s.next + 1 })
  | .write i d =>
    if fail then (false, { s with data := upd s.data i (s.data i ++ d.take 1), synced := upd s.synced i false })
    else (true, { s with data := upd s.data i (s.data i ++ d), synced := upd s.synced i false })
  | .fsync i => if fail then (false, s) else (true, { s with synced := upd s.synced i true })
  | .close _ => (!fail, s)
  | .rename x y =>
    match fail, s.dir x with
    | false, some i => (true, { s with dir := upd (upd s.dir x none) y (some i), log := s.log ++ [(p, .placed y)] })
    | _, _ => (false, s)
  | .fsyncParent _ => (!fail, s)
  | .unlink x =>
    match fail, s.dir x with
    | true, _ => (UnlinkRes.fail, s)
    | false, some _ => (UnlinkRes.ok, { s with dir := upd s.dir x none })
    | false, none => (UnlinkRes.enoent, s)
  | .stat x =>
    match fail, s.content x with
    | true, _ => (StatRes.fail, s)
    | false, some b => (StatRes.size b.length, s)
    | false, none => (StatRes.enoent, s)
  | .readN x n =>
    match fail, s.content x with
    | true, _ => (ReadRes.fail, s)
    | false, some b => if n ≤ b.length then (ReadRes.data (b.take n), s) else (ReadRes.fail, s)
    | false, none => (ReadRes.enoent, s)
  | .readAll x =>
    match fail, s.content x with
    | true, _ => (ReadRes.fail, s)
    | false, some b => (ReadRes.data b, s)
    | false, none => (ReadRes.enoent, s)
  | .event e => ((), { s with log := s.log ++ [(p, e)] })

def stepD {α : Type} (p : Pid) (fail : Bool) (c : Config Cmd R FS α) : Config Cmd R FS α :=
  match c.procs p with
  | .ret _ => c
  | .act cmd k => ⟨(answer fail p cmd c.st).2, fun q => if q = p then k (answer fail p cmd c.st).1 else c.procs q⟩

/-- run a schedule: who moves, and whether the call fails -/
def sched {α : Type} (l : List (Pid × Bool)) (c : Config Cmd R FS α) : Config Cmd R FS α := l.foldl (fun c x => stepD x.1 x.2 c) c

theorem answer_exec (f : Faults) (fail : Bool) (hf : fail = true → f.parentSync = true ∧ f.read = true) (p : Pid) (c : Cmd) (s : FS) :
    exec f p c s (answer fail p c s).1 (answer fail p c s).2 := by
  cases c with
  | exist x => exact ⟨rfl, rfl⟩
  | creat x =>
    cases fail with
    | true => simp [exec, answer, xCreat]
    | false =>
      cases h : s.dir x <;> simp [exec, answer, xCreat, h]
  | write i d =>
    cases fail with
    | true => exact ⟨1, rfl⟩
    | false => simp [exec, answer, xWrite]
  | fsync i => cases fail <;> simp [exec, answer, xFsync]
  | close i => rfl
  | rename x y =>
    cases fail with
    | true => simp [exec, answer, xRename]
    | false => cases h : s.dir x <;> simp [exec, answer, xRename, h]
  | fsyncParent x =>
    refine ⟨rfl, fun h => ?_⟩
    cases fail with
    | false => rfl
    | true => have := (hf rfl).1; rw [this] at h; cases h
  | unlink x =>
    cases fail with
    | true => simp [exec, answer, xUnlink]
    | false => cases h : s.dir x <;> simp [exec, answer, xUnlink, h]
  | stat x =>
    cases fail with
    | true => simp [exec, answer, xStat, (hf rfl).2]
    | false => cases h : s.content x <;> simp [exec, answer, xStat, h]
  | readN x k =>
    cases fail with
    | true => simp [exec, answer, xReadN, (hf rfl).2]
    | false =>
      cases h : s.content x with
      | none => simp [exec, answer, xReadN, h]
      | some b =>
        by_cases hk : k ≤ b.length
        · simp [exec, answer, xReadN, h, hk]
        · simp [exec, answer, xReadN, h, hk]; right; omega
  | readAll x =>
    cases fail with
    | true => simp [exec, answer, xReadAll, (hf rfl).2]
    | false => cases h : s.content x <;> simp [exec, answer, xReadAll, h]
  | event e => rfl

theorem sched_run {α : Type} (f : Faults) (l : List (Pid × Bool)) (hl : ∀ x ∈ l, x.2 = true → f.parentSync = true ∧ f.read = true)
    (c₀ c : Config Cmd R FS α) (h : Run (exec f) c₀ c) : Run (exec f) c₀ (sched l c) := by
  induction l generalizing c with
  | nil => exact h
  | cons x l ih =>
    refine ih (fun y hy => hl y (by simp [hy])) _ ?_
    simp only [stepD]
    cases hp : c.procs x.1 with
    | ret a => simp only []; exact h
    | act cmd k =>
      simp only []
      exact .next x.1 h (.mk x.1 c.st _ c.procs cmd k _ hp (answer_exec f x.2 (hl x (by simp)) x.1 cmd c.st))

end Verif.FileBuf
