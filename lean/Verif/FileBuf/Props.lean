import Verif.FileBuf.Client
/-! # C17: replacing a file through `git_filebuf` is atomic and mutually exclusive -/
namespace Verif.FileBuf
open Verif.Conc

section
variable {jobs : Pid → Job} {fs : FS} {rd : Bool} {c : Config Cmd R FS Int}

theorem start_ok (rd : Bool) (hj : ∀ p, ¬ IsLock (jobs p).path) (hfs : Fresh fs) (p : Pid) :
    Ok (exec ⟨false, rd⟩) p (fun a b => ∃ q, q ≠ p ∧ G (Chg jobs) q a b) (G (Chg jobs) p) (Post jobs p) ((start jobs fs).procs p) (start jobs fs).st := by
  refine job_ok jobs rd p (hj p) ⟨hfs.wf, ?_⟩
  unfold InPhase ev
  show ((fs.log.filter _).map _) = []
  rw [hfs.log]; rfl

theorem run_step (hj : ∀ p, ¬ IsLock (jobs p).path) (hfs : Fresh fs) (hr : Run (exec ⟨false, rd⟩) (start jobs fs) c) {p : Pid}
    {c' : Config Cmd R FS Int} (hs : Step (exec ⟨false, rd⟩) p c c') : G (Chg jobs) p c.st c'.st :=
  (rg_sound (exec ⟨false, rd⟩) (G (Chg jobs)) (Post jobs) _ (start_ok rd hj hfs) hr).2 p c' hs

theorem run_wf (hj : ∀ p, ¬ IsLock (jobs p).path) (hfs : Fresh fs) (hr : Run (exec ⟨false, rd⟩) (start jobs fs) c) : WF c.st :=
  rg_inv (exec ⟨false, rd⟩) (G (Chg jobs)) (Post jobs) _ (start_ok rd hj hfs) WF hfs.wf (fun _ _ _ h g => g.1.wf h) hr

/-- **C17 (atomic replacement).** Any number of processes run any jobs on any files, interleaved in any way, with any system call failing at
any time and any process stopping at any time.  One step of a process changes the content of no file but the job's own, and that one only
from what it was to the complete new content; with GIT_FILEBUF_FSYNC the new content is on the disk at that moment. -/
theorem C17_atomic (hj : ∀ p, ¬ IsLock (jobs p).path) (hfs : Fresh fs) (hr : Run (exec ⟨false, rd⟩) (start jobs fs) c) {p : Pid}
    {c' : Config Cmd R FS Int} (hs : Step (exec ⟨false, rd⟩) p c c') (x : Path) (hx : ¬ IsLock x) :
    c'.st.content x = c.st.content x ∨
    (x = (jobs p).path ∧ c'.st.content x = some (newContent (jobs p) (c.st.content x)) ∧
      ((jobs p).opts.fsync = true → ∃ i, c'.st.dir x = some i ∧ c'.st.synced i = true)) := by
  obtain ⟨hb, hc⟩ := run_step hj hfs hr hs
  rcases hc.file x hx with h | ⟨h1, h2, h3, _⟩
  · exact .inl (hb.content_same hx h)
  · exact .inr ⟨h1, h2, h3⟩

/-- **C17 (what a reader or a crash sees).** At every moment every file has the content it started with, or a complete content that some job
made for it. -/
theorem C17_content (hj : ∀ p, ¬ IsLock (jobs p).path) (hfs : Fresh fs) (hr : Run (exec ⟨false, rd⟩) (start jobs fs) c) (x : Path)
    (hx : ¬ IsLock x) : Content jobs fs x (c.st.content x) := by
  induction hr with
  | start => exact .old
  | next p hr hs ih =>
    rcases C17_atomic hj hfs hr hs x hx with h | ⟨h1, h2, _⟩
    · rw [h]; exact ih
    · rw [h2]; exact .new p ih h1.symm

/-- a file in place is never modified; with the lock held by somebody it is not even replaced by anybody else -/
theorem C17_locked_file (hj : ∀ p, ¬ IsLock (jobs p).path) (hfs : Fresh fs) (hr : Run (exec ⟨false, rd⟩) (start jobs fs) c) {p : Pid}
    {c' : Config Cmd R FS Int} (hs : Step (exec ⟨false, rd⟩) p c c') (x : Path) (hx : ¬ IsLock x) (i : Ino)
    (hl : c.st.dir (lockPath x) = some i) (ho : c.st.owner i ≠ some p) : c'.st.content x = c.st.content x := by
  obtain ⟨hb, _⟩ := run_step hj hfs hr hs
  rcases hb.file x hx with h | ⟨j, hj', _⟩
  · exact hb.content_same hx h
  · have := hj'.1
    rw [hl] at this
    cases this
    exact absurd hj'.2 ho

/-- **C17 (only the creator removes a lock).** A lock file stays, whoever else runs, until the process that created it removes it; a lock
that was there before stays for ever. -/
theorem C17_lock_owner (hj : ∀ p, ¬ IsLock (jobs p).path) (hfs : Fresh fs) (hr : Run (exec ⟨false, rd⟩) (start jobs fs) c) {p : Pid}
    {c' : Config Cmd R FS Int} (hs : Step (exec ⟨false, rd⟩) p c c') (t : Path) (i : Ino)
    (hl : c.st.dir (lockPath t) = some i) (ho : c.st.owner i ≠ some p) : c'.st.dir (lockPath t) = some i := by
  obtain ⟨hb, _⟩ := run_step hj hfs hr hs
  rcases hb.lock t with h | ⟨h, _⟩ | ⟨_, j, h1, h2⟩
  · rw [h]; exact hl
  · rw [hl] at h; cases h
  · rw [hl] at h1; cases h1; exact absurd h2 ho

/-- the invariant behind mutual exclusion -/
structure Inv (jobs : Pid → Job) (s : FS) : Prop where
  wf : WF s
  hold : ∀ q, ev q s = phase (jobs q).path 1 → ∃ i, Hold q (jobs q).path i s
  ph : ∀ q, ∃ k, ev q s = phase (jobs q).path k
  excl : Exclusive s.log

theorem phase_mem (t u : Path) (k : Nat) : (Event.acquired u ∈ phase t k → u = t) ∧ (Event.placed u ∈ phase t k → u = t ∧ k ≥ 3) := by
  match k with
  | 0 => simp [phase]
  | 1 => simp [phase]
  | 2 => simp [phase]
  | k + 3 => simp [phase]

/-- an event of a process shows in its own list -/
theorem ev_split (q : Pid) (s : FS) (A B : List (Pid × Event)) (e : Event) (h : s.log = A ++ (q, e) :: B) :
    ev q s = ((A.filter (fun x => x.1 == q)).map (·.2)) ++ e :: ((B.filter (fun x => x.1 == q)).map (·.2)) := by
  unfold ev; rw [h, List.filter_append, List.filter_cons_of_pos (by simp)]; simp

theorem phase_acquired {t u : Path} {k : Nat} {A B : List Event} (h : phase t k = A ++ .acquired u :: B) :
    u = t ∧ A = [] ∧ (B = [] → k = 1) ∧ (B ≠ [] → B.head? = some (.releasing t)) := by
  match k with
  | 0 => simp [phase] at h
  | 1 =>
    cases A with
    | nil => simp [phase] at h; obtain ⟨rfl, rfl⟩ := h; simp
    | cons a A => simp [phase] at h
  | 2 =>
    cases A with
    | nil => simp [phase] at h; obtain ⟨rfl, rfl⟩ := h; simp
    | cons a A =>
      cases A with
      | nil => simp [phase] at h
      | cons b A => simp [phase] at h
  | k + 3 =>
    cases A with
    | nil => simp [phase] at h; obtain ⟨rfl, rfl⟩ := h; simp
    | cons a A =>
      cases A with
      | nil => simp [phase] at h
      | cons b A =>
        cases A with
        | nil => simp [phase] at h
        | cons c A => simp [phase] at h

theorem Inv.step {s s' : FS} (h : Inv jobs s) {q : Pid} (g : G (Chg jobs) q s s') : Inv jobs s' := by
  obtain ⟨hb, hc⟩ := g
  have hhold : ∀ p, ev p s' = phase (jobs p).path 1 → ∃ i, Hold p (jobs p).path i s' := by
    intro p hp
    by_cases hpq : p = q
    · subst hpq; exact hc.hold hp
    · rw [ev_other hpq s s' hb] at hp
      obtain ⟨i, hi⟩ := h.hold p hp
      exact ⟨i, hb.hold hpq h.wf hi⟩
  have hphase : ∀ p, ∃ k, ev p s' = phase (jobs p).path k := by
    intro p
    by_cases hpq : p = q
    · subst hpq; exact hc.phase
    · rw [ev_other hpq s s' hb]; exact h.ph p
  refine ⟨hb.wf h.wf, hhold, hphase, ?_⟩
  rcases hc.log with hl | ⟨e, hl⟩
  · rw [hl]; exact h.excl
  intro A B C p r t hlog
  -- is the second acquisition the new event?
  rcases List.eq_nil_or_concat C with hC | ⟨C', z, hC⟩
  · subst hC
    have hlog2 : s'.log = (A ++ (p, .acquired t) :: B) ++ (r, .acquired t) :: [] := by rw [hlog]; simp
    have h2 : s'.log = s.log ++ [(q, e)] := hl
    rw [hlog2] at h2
    obtain ⟨h3, h4⟩ := List.append_inj' h2 rfl
    have hr : r = q ∧ e = .acquired t := by simp at h4; exact ⟨h4.1, h4.2.symm⟩
    obtain ⟨rfl, rfl⟩ := hr
    -- r is now in phase 1
    obtain ⟨k, hk⟩ := hphase r
    have hsp := ev_split r s' _ _ _ hlog2
    rw [hk] at hsp
    obtain ⟨e1, e2, e3, _⟩ := phase_acquired hsp
    have hk1 := e3 rfl
    subst hk1
    obtain ⟨i, hi⟩ := hhold r hk
    -- the first holder
    have hlog3 : s.log = A ++ (p, .acquired t) :: B := h3.symm
    have hpr : p ≠ r := by
      rintro rfl
      rw [List.filter_append, List.map_append] at e2
      have := (List.append_eq_nil_iff.1 e2).2
      rw [List.filter_cons_of_pos (by simp)] at this
      simp at this
    obtain ⟨k2, hk2⟩ := h.ph p
    have hsp2 := ev_split p s _ _ _ hlog3
    rw [hk2] at hsp2
    obtain ⟨f1, f2, f3, f4⟩ := phase_acquired hsp2
    by_cases hB : (B.filter (fun x => x.1 == p)).map (·.2) = []
    · have := f3 hB
      subst this
      obtain ⟨j, hj⟩ := h.hold p hk2
      have hj' := hb.hold hpr h.wf hj
      rw [← f1] at hj'
      rw [← e1] at hi
      have := hj'.1
      rw [hi.1] at this
      cases this
      have := hj'.2
      rw [hi.2] at this
      cases this
      exact absurd rfl hpr
    · have := f4 hB
      have hm : Event.releasing (jobs p).path ∈ (B.filter (fun x => x.1 == p)).map (·.2) := List.mem_of_mem_head? this
      obtain ⟨⟨p', e'⟩, hm1, hm2⟩ := List.mem_map.1 hm
      obtain ⟨hm3, hm4⟩ := List.mem_filter.1 hm1
      simp at hm2 hm4
      subst hm2 hm4
      rw [f1]; exact hm3
  · subst hC
    rw [List.concat_eq_append] at hlog
    have hlog2 : s'.log = (A ++ (p, .acquired t) :: (B ++ (r, .acquired t) :: C')) ++ [z] := by rw [hlog]; simp
    rw [hl] at hlog2
    obtain ⟨h3, _⟩ := List.append_inj' hlog2 rfl
    exact h.excl A B C' p r t h3

/-- **C17 (mutual exclusion).** Between the return of `git_filebuf_open` and the beginning of commit or cleanup, at most one process is
there for each path, whatever the schedule and the failures. -/
theorem C17_exclusive (hj : ∀ p, ¬ IsLock (jobs p).path) (hfs : Fresh fs) (hr : Run (exec ⟨false, rd⟩) (start jobs fs) c) :
    Exclusive c.st.log := by
  have h : Inv jobs c.st := by
    refine rg_inv (exec ⟨false, rd⟩) (G (Chg jobs)) (Post jobs) _ (start_ok rd hj hfs) (Inv jobs) ⟨hfs.wf, ?_, ?_, ?_⟩ (fun _ _ _ h g => h.step g) hr
    · intro q h
      have : ev q fs = [] := by unfold ev; rw [hfs.log]; rfl
      rw [show (start jobs fs).st = fs from rfl, this] at h; cases h
    · intro q; exact ⟨0, by show ev q fs = []; unfold ev; rw [hfs.log]; rfl⟩
    · intro A B C p q t h
      rw [show (start jobs fs).st = fs from rfl, hfs.log] at h
      simp at h
  exact h.excl

/-- the log only grows -/
theorem log_grows (hj : ∀ p, ¬ IsLock (jobs p).path) (hfs : Fresh fs) {c₁ : Config Cmd R FS Int} (h1 : Run (exec ⟨false, rd⟩) (start jobs fs) c₁)
    (hr : Run (exec ⟨false, rd⟩) c₁ c) : ∃ l, c.st.log = c₁.st.log ++ l := by
  have : Run (exec ⟨false, rd⟩) (start jobs fs) c ∧ ∃ l, c.st.log = c₁.st.log ++ l := by
    induction hr with
    | start => exact ⟨h1, [], by simp⟩
    | next p hr hs ih =>
      obtain ⟨h2, l, hl⟩ := ih
      obtain ⟨es, he⟩ := (run_step hj hfs h2 hs).1.log
      exact ⟨.next p h2 hs, l ++ es.map _, by rw [he, hl, List.append_assoc]⟩
  exact this.2

/-- **C17 (success means replaced).** When a process returns 0, one of its steps gave the file its complete new content. -/
theorem C17_success (hj : ∀ p, ¬ IsLock (jobs p).path) (hfs : Fresh fs) (hr : Run (exec ⟨false, rd⟩) (start jobs fs) c) (p : Pid)
    (h0 : c.procs p = .ret 0) :
    ∃ c₁ c₂, Run (exec ⟨false, rd⟩) (start jobs fs) c₁ ∧ Step (exec ⟨false, rd⟩) p c₁ c₂ ∧ Run (exec ⟨false, rd⟩) c₂ c ∧
      c₂.st.content (jobs p).path = some (newContent (jobs p) (c₁.st.content (jobs p).path)) := by
  have hpost := rg_post (exec ⟨false, rd⟩) (G (Chg jobs)) (Post jobs) _ (start_ok rd hj hfs) hr p 0 h0
  have hmem : (p, Event.placed (jobs p).path) ∈ c.st.log := by
    have := hpost.1 rfl
    unfold InPhase ev at this
    have hm : Event.placed (jobs p).path ∈ (c.st.log.filter (fun x => x.1 == p)).map (·.2) := by rw [this]; simp [phase]
    obtain ⟨⟨p', e'⟩, hm1, hm2⟩ := List.mem_map.1 hm
    obtain ⟨hm3, hm4⟩ := List.mem_filter.1 hm1
    simp at hm2 hm4
    subst hm2 hm4
    exact hm3
  clear hpost h0
  induction hr with
  | start => rw [show (start jobs fs).st = fs from rfl, hfs.log] at hmem; cases hmem
  | next q hr hs ih =>
    rename_i c c'
    by_cases hold : (p, Event.placed (jobs p).path) ∈ c.st.log
    · obtain ⟨c₁, c₂, g1, g2, g3, g4⟩ := ih hold
      exact ⟨c₁, c₂, g1, g2, .next q g3 hs, g4⟩
    · obtain ⟨hb, hc⟩ := run_step hj hfs hr hs
      rcases hc.log with hl | ⟨e, hl⟩
      · rw [hl] at hmem; exact absurd hmem hold
      · have hl' := hl
        rw [hl] at hmem
        simp only [List.mem_append, List.mem_singleton] at hmem
        rcases hmem with h | h
        · exact absurd h hold
        · cases h
          exact ⟨c, c', hr, hs, .start, hc.placed hl'⟩

/-- **C17 (failure means untouched).** When a process has returned an error, none of its steps changed any file. -/
theorem C17_failure (hj : ∀ p, ¬ IsLock (jobs p).path) (hfs : Fresh fs) (p : Pid) (r : Int) (hne : r ≠ 0)
    {c₁ c₂ : Config Cmd R FS Int} (h1 : Run (exec ⟨false, rd⟩) (start jobs fs) c₁) (hs : Step (exec ⟨false, rd⟩) p c₁ c₂)
    (h2 : Run (exec ⟨false, rd⟩) c₂ c) (h0 : c.procs p = .ret r) (x : Path) (hx : ¬ IsLock x) : c₂.st.content x = c₁.st.content x := by
  have h12 := Run.next p h1 hs
  have hr : Run (exec ⟨false, rd⟩) (start jobs fs) c := by
    induction h2 with
    | start => exact h12
    | next q _ hs ih =>
      rename_i c c' hrun
      have : Run (exec ⟨false, rd⟩) (start jobs fs) c := by
        clear ih hs h0
        induction hrun with
        | start => exact h12
        | next q _ hs ih => exact .next q ih hs
      exact .next q this hs
  obtain ⟨hb, hc⟩ := run_step hj hfs h1 hs
  rcases hc.file x hx with h | ⟨_, _, _, hl⟩
  · exact hb.content_same hx h
  · obtain ⟨l, hlog⟩ := log_grows hj hfs h12 h2
    obtain ⟨k, hk3, hk, hph⟩ := (rg_post (exec ⟨false, rd⟩) (G (Chg jobs)) (Post jobs) _ (start_ok rd hj hfs) hr p r h0).2 hne
    unfold InPhase at hph
    have := ev_split p c.st c₁.st.log l (.placed (jobs p).path) (by rw [hlog, hl]; simp)
    rw [hph] at this
    have hm : Event.placed (jobs p).path ∈ phase (jobs p).path k := by rw [this]; simp
    have := ((phase_mem _ _ k).2 hm).2
    omega

end

/-- after a flush the buffer is empty and the options are the same -/
theorem flush_cong {α : Type} (f : FB) (g h : Int × FB → P α) (hgh : ∀ r f', f'.buf = [] → f'.opts = f.opts → g (r, f') = h (r, f')) :
    (flushBuffer f >>= g) = (flushBuffer f >>= h) := by
  unfold flushBuffer writeNormal
  split
  · cases hfd : f.fd with
    | none => exact hgh _ _ rfl rfl
    | some i =>
      show Prog.act (Cmd.write i f.buf) _ = Prog.act (Cmd.write i f.buf) _
      congr 1
      funext w
      cases w with
      | true => exact hgh _ _ rfl rfl
      | false => exact hgh _ _ rfl rfl
  · exact hgh _ _ rfl rfl

/-- **C17 (the write loop ends).** With a buffer that is not full the fuel of the model never runs out: more of it changes nothing. -/
theorem C17_write_loop_total (f : FB) (d : Bytes) (fuel : Nat) (hb : f.buf.length < f.opts.bufSize) (hf : d.length < fuel) :
    writeLoop (fuel + 1) f d = writeLoop fuel f d := by
  induction fuel generalizing f d with
  | zero => omega
  | succ fuel ih =>
    rw [writeLoop, writeLoop]
    simp only
    split
    · rfl
    · rename_i hsp
      refine flush_cong _ _ _ ?_
      intro r f' h1 h2
      simp only
      split
      · rfl
      · refine ih f' _ (by rw [h1, h2]; simp only [List.length_nil]; omega) ?_
        rw [List.length_drop]
        omega

/-! ## Concrete runs -/

def noFiles : FS := ⟨fun _ => none, fun _ => [], fun _ => false, fun _ => none, 0, []⟩

theorem noFiles_fresh : Fresh noFiles := ⟨⟨fun _ _ h => (by cases h), fun _ _ _ h => (by cases h)⟩, fun _ => rfl, rfl⟩

/-- one file "f" that contains "old" -/
def oneFile : FS := ⟨fun x => if x = b!"f" then some 0 else none, fun _ => b!"old", fun _ => true, fun _ => none, 1, []⟩

theorem oneFile_fresh : Fresh oneFile := by
  refine ⟨⟨?_, ?_⟩, fun _ => rfl, rfl⟩
  · intro x i h
    simp only [oneFile] at h ⊢
    split at h
    · cases h; decide
    · cases h
  · intro x y i hx hy
    simp only [oneFile] at hx hy
    split at hx
    · split at hy
      · simp_all
      · cases hy
    · cases hx

def optsA : Opts := ⟨true, true, false, 4⟩
def optsB : Opts := ⟨false, false, false, 4⟩

/-- every process wants to write "f" -/
def jobsF (p : Pid) : Job := ⟨b!"f", if p = 0 then optsA else optsB, [b!"new", b!"er"], true, false⟩

theorem not_lock_f : ¬ IsLock b!"f" := by
  rintro ⟨t, h⟩
  have := congrArg List.length h
  simp [lockPath] at this

/-- the hypotheses of the theorems hold of this system -/
example : (∀ p, ¬ IsLock (jobsF p).path) ∧ Fresh oneFile := ⟨fun _ => not_lock_f, oneFile_fresh⟩

def result {α : Type} : P α → Option α
  | .ret a => some a
  | _ => none

/-- process 0 alone: it appends, in a buffer of 4 bytes, and returns 0 -/
example : (sched (List.replicate 20 (0, false)) (start jobsF oneFile)).st.content b!"f" = some b!"oldnewer" ∧
    result ((sched (List.replicate 20 (0, false)) (start jobsF oneFile)).procs 0) = some 0 := by
  decide +kernel

/-- process 1 alone replaces the content -/
example : (sched (List.replicate 20 (1, false)) (start jobsF oneFile)).st.content b!"f" = some b!"newer" ∧
    result ((sched (List.replicate 20 (1, false)) (start jobsF oneFile)).procs 1) = some 0 := by
  decide +kernel

/-- while process 0 is writing, process 1 is refused -/
example : result ((sched (List.replicate 6 (0, false) ++ List.replicate 20 (1, false)) (start jobsF oneFile)).procs 1) = some ELOCKED := by
  decide +kernel

/-- a failing write leaves the file alone, and the caller hears about it -/
example : (sched (List.replicate 3 (1, false) ++ [(1, true)] ++ List.replicate 20 (1, false)) (start jobsF oneFile)).st.content b!"f" = some b!"old" := by
  decide +kernel

/-! ## Where the property fails

When the system can fail to sync a *directory*, `git_filebuf_commit` goes to its error exit after the rename, with `did_rename` still
unset; `git_filebuf_cleanup` then unlinks the lock path, which by now may be somebody else's lock. -/

/-- process 0 renames; process 1 takes the lock; process 0's directory sync fails and it unlinks the lock; process 2 takes the lock -/
def badSchedule : List (Pid × Bool) :=
  List.replicate 12 (0, false) ++ List.replicate 3 (1, false) ++ [(0, true), (0, false), (0, false)] ++ List.replicate 3 (2, false)

/-- **C17 (negative).** If syncing a directory can fail, mutual exclusion is lost: here two processes are in the critical section of the same
file at once. -/
theorem C17_parent_sync_failure_breaks_exclusion :
    ∃ (jobs : Pid → Job) (fs : FS) (c : Config Cmd R FS Int), (∀ p, ¬ IsLock (jobs p).path) ∧ Fresh fs ∧
      Run (exec ⟨true, true⟩) (start jobs fs) c ∧ ¬ Exclusive c.st.log := by
  refine ⟨jobsF, oneFile, sched badSchedule (start jobsF oneFile), fun _ => not_lock_f, oneFile_fresh,
    sched_run ⟨true, true⟩ badSchedule (fun _ _ _ => ⟨rfl, rfl⟩) _ _ .start, ?_⟩
  intro h
  have hlog : (sched badSchedule (start jobsF oneFile)).st.log =
      [(0, .acquired b!"f"), (0, .releasing b!"f"), (0, .placed b!"f")] ++ (1, .acquired b!"f") :: ([] ++ (2, .acquired b!"f") :: []) := by
    decide +kernel
  exact absurd (h _ _ _ _ _ _ hlog) (by simp)

/-- **C17 (negative).** If copying the old content of a file opened with GIT_FILEBUF_APPEND fails, `git_filebuf_open` returns an error but
leaves its lock file behind (`created_lock` is only set after `lock_file` has succeeded): the file stays locked. -/
theorem C17_append_failure_leaks_lock :
    ∃ (jobs : Pid → Job) (fs : FS) (c : Config Cmd R FS Int), (∀ p, ¬ IsLock (jobs p).path) ∧ Fresh fs ∧
      Run (exec ⟨true, true⟩) (start jobs fs) c ∧ result (c.procs 0) = some (-1) ∧ (c.st.dir (lockPath (jobs 0).path)).isSome = true ∧
      fs.dir (lockPath (jobs 0).path) = none := by
  refine ⟨jobsF, oneFile, sched ([(0, false), (0, false), (0, false), (0, false), (0, true)] ++ List.replicate 5 (0, false)) (start jobsF oneFile),
    fun _ => not_lock_f, oneFile_fresh, sched_run ⟨true, true⟩ _ (fun _ _ _ => ⟨rfl, rfl⟩) _ _ .start, ?_, ?_, ?_⟩ <;> decide +kernel

end Verif.FileBuf
