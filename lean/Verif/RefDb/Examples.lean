import Verif.RefDb.Props
/-! # C18, C19: concrete runs, and where the properties fail -/
namespace Verif.RefDb
open Verif.Conc Verif.FileBuf Verif.RefPacked

instance {α : Type} [DecidableEq α] : DecidableEq (Res α)
  | .ok a, .ok b => if h : a = b then isTrue (h ▸ rfl) else isFalse (fun e => by cases e; exact h rfl)
  | .err a, .err b => if h : a = b then isTrue (h ▸ rfl) else isFalse (fun e => by cases e; exact h rfl)
  | .ub, .ub => isTrue rfl
  | .ok _, .err _ => isFalse (fun e => by cases e)
  | .ok _, .ub => isFalse (fun e => by cases e)
  | .err _, .ok _ => isFalse (fun e => by cases e)
  | .err _, .ub => isFalse (fun e => by cases e)
  | .ub, .ok _ => isFalse (fun e => by cases e)
  | .ub, .err _ => isFalse (fun e => by cases e)

/-- a file system that contains these files -/
def mkFS (l : List (Path × Bytes)) : FS :=
  ⟨fun x => (l.map (·.1)).idxOf? x, fun i => ((l[i]?).map (·.2)).getD [], fun _ => true, fun _ => none, l.length, []⟩

theorem mkFS_fresh (l : List (Path × Bytes)) : Fresh (mkFS l) := by
  refine ⟨⟨?_, ?_⟩, fun _ => rfl, rfl⟩
  · intro x i h
    have h : (l.map (·.1)).idxOf? x = some i := h
    have := List.findIdx?_eq_some_iff_findIdx_eq.mp h
    show i < l.length
    simpa using this.1
  · intro x y i hx hy
    have hx : (l.map (·.1)).findIdx? (· == x) = some i := hx
    have hy : (l.map (·.1)).findIdx? (· == y) = some i := hy
    rw [List.findIdx?_eq_some_iff_getElem] at hx hy
    obtain ⟨h1, h2, _⟩ := hx
    obtain ⟨_, h3, _⟩ := hy
    simp only [beq_iff_eq] at h2 h3
    rw [← h2, ← h3]

def opts : Opts := ⟨false, true, false, 16⟩
def refA : Path := b!"refs/a"
def refB : Path := b!"refs/b"
def noPeel : Bytes → Bytes → Option (Option Bytes) := fun _ _ => some none

theorem not_lock (x : Path) (h : x.getLast? ≠ some c!"k") : ¬ IsLock x := by
  rintro ⟨t, rfl⟩
  apply h
  unfold lockPath
  rw [List.getLast?_append]
  rfl

theorem refA_name : RefName refA := ⟨by decide, by decide, by decide, by decide, not_lock _ (by decide), by decide⟩
theorem refB_name : RefName refB := ⟨by decide, by decide, by decide, by decide, not_lock _ (by decide), by decide⟩

/-- "refs/a" is loose and packed, "refs/b" only packed -/
def repo : FS := mkFS [(packedRefs, b!"# pack-refs with: peeled fully-peeled sorted \n11 refs/a\n33 refs/b\n"), (refA, b!"22\n")]

/-- two writers of "refs/a", a packer, and readers of "refs/b" -/
def tasksX : Pid → Task
  | 0 => .write ⟨refA, .oid [0x44], some [0x22], none, true, opts⟩
  | 1 => .write ⟨refA, .oid [0x55], some [0x22], none, true, opts⟩
  | 2 => .pack ⟨[refA], noPeel, opts⟩
  | _ => .read refB

def turns (p : Pid) (k : Nat) : List (Pid × Bool) := List.replicate k (p, false)

theorem packed_repo : ∃ b, repo.content packedRefs = some b ∧ PackedFile 1 b := by
  refine ⟨_, rfl, [b!" pack-refs with: peeled fully-peeled sorted "], [⟨refA, [0x11], none⟩, ⟨refB, [0x33], none⟩], by decide +kernel, ?_, ?_, ?_, ?_, ?_⟩
  · intro l hl; rw [List.mem_singleton.mp hl]; decide
  · intro r hr
    simp only [List.mem_cons, List.not_mem_nil, or_false] at hr
    rcases hr with rfl | rfl <;> exact ⟨by decide, by decide, by decide, fun p h => by cases h⟩
  · intro r hr
    simp only [List.mem_cons, List.not_mem_nil, or_false] at hr
    rcases hr with rfl | rfl <;> decide
  · decide
  · intro _; decide

/-- the hypotheses are satisfiable, with writers, a packer and readers at once -/
theorem setupX : Setup 1 ⟨false, false⟩ tasksX repo := by
  refine ⟨by decide, mkFS_fresh _, ?_, ?_, ?_, rfl, fun _ _ => rfl⟩
  · intro p
    match p with
    | 0 => exact ⟨refA_name, rfl, rfl, rfl⟩
    | 1 => exact ⟨refA_name, rfl, rfl, rfl⟩
    | 2 => exact ⟨fun n hn _ => (by rw [List.mem_singleton.mp hn]; exact refA_name), fun n x p h => (by cases h), rfl, rfl⟩
    | p + 3 => exact refB_name
  · intro p q hp hq
    match p, q with
    | 0, _ => exact hp.elim
    | 1, _ => exact hp.elim
    | 2, 2 => rfl
    | 2, 0 => exact hq.elim
    | 2, 1 => exact hq.elim
    | 2, q + 3 => exact hq.elim
    | p + 3, _ => exact hp.elim
  · intro p _; exact .inr packed_repo

def code : Option Outcome → Option Int
  | some (.code e) => some e
  | _ => none

def found : Option Outcome → Option (Res RefVal)
  | some (.found r) => some r
  | _ => none

/-- writer 0 wins, writer 1 is told that the reference has changed -/
example : val 1 (sched (turns 0 30 ++ turns 1 30) (start 1 tasksX repo)).st refA = .ok (.oid [0x44]) ∧
    code (result ((sched (turns 0 30 ++ turns 1 30) (start 1 tasksX repo)).procs 0)) = some 0 ∧
    code (result ((sched (turns 0 30 ++ turns 1 30) (start 1 tasksX repo)).procs 1)) = some EMODIFIED := by decide +kernel

/-- the packer removes the loose file; both references keep their values, which are now in the packed file -/
example : val 1 (sched (turns 2 60) (start 1 tasksX repo)).st refA = .ok (.oid [0x22]) ∧
    (sched (turns 2 60) (start 1 tasksX repo)).st.content refA = none ∧
    val 1 (sched (turns 2 60) (start 1 tasksX repo)).st refB = .ok (.oid [0x33]) ∧
    code (result ((sched (turns 2 60) (start 1 tasksX repo)).procs 2)) = some 0 := by decide +kernel

/-- the packer has written the old value into the packed file when the writer comes; the new value survives -/
example : val 1 (sched (turns 2 8 ++ turns 0 30 ++ turns 2 60) (start 1 tasksX repo)).st refA = .ok (.oid [0x44]) := by decide +kernel

/-- a deleter -/
def tasksD : Pid → Task
  | 0 => .delete ⟨refA, some [0x22], none, noPeel, opts⟩
  | _ => .read refB

example : val 1 (sched (turns 0 60) (start 1 tasksD repo)).st refA = .err ENOTFOUND ∧
    val 1 (sched (turns 0 60) (start 1 tasksD repo)).st refB = .ok (.oid [0x33]) ∧
    code (result ((sched (turns 0 60) (start 1 tasksD repo)).procs 0)) = some 0 := by decide +kernel

theorem setupD : Setup 1 ⟨false, false⟩ tasksD repo := by
  refine ⟨by decide, mkFS_fresh _, ?_, ?_, ?_, rfl, fun _ _ => rfl⟩
  · intro p
    match p with
    | 0 => exact ⟨refA_name, fun n x p h => (by cases h), rfl, rfl⟩
    | p + 1 => exact refB_name
  · intro p q hp hq
    match p, q with
    | 0, 0 => rfl
    | 0, q + 1 => exact hq.elim
    | p + 1, _ => exact hp.elim
  · intro p _; exact .inr packed_repo

/-! ## Where the properties fail -/

/-- only "refs/a", packed -/
def repo1 : FS := mkFS [(packedRefs, b!"# pack-refs with: peeled fully-peeled sorted \n11 refs/a\n")]

/-- two packers and a writer -/
def tasksPP : Pid → Task
  | 0 => .pack ⟨[], noPeel, opts⟩
  | 1 => .write ⟨refA, .oid [0x22], some [0x11], none, true, opts⟩
  | 2 => .pack ⟨[refA], noPeel, opts⟩
  | _ => .read refA

/-- **C19 (negative: two packers).** The packed file is read before its lock is taken.  With two packers at once an update is lost: the first
packer reads the packed file; a writer then updates a reference, successfully; the second packer moves the new value into the packed file and
removes the loose file; the first packer writes the old value back.  No call fails. -/
theorem C19_two_packers_lose_an_update :
    ∃ (l : List (Pid × Bool)), (∀ x ∈ l, x.2 = false) ∧
      (∀ p, (tasksPP p).Valid 1) ∧ Fresh repo1 ∧
      code (result ((sched l (start 1 tasksPP repo1)).procs 0)) = some 0 ∧
      code (result ((sched l (start 1 tasksPP repo1)).procs 1)) = some 0 ∧
      code (result ((sched l (start 1 tasksPP repo1)).procs 2)) = some 0 ∧
      val 1 (sched l (start 1 tasksPP repo1)).st refA = .ok (.oid [0x11]) := by
  refine ⟨turns 0 1 ++ turns 1 30 ++ turns 2 60 ++ turns 0 60, by decide +kernel, ?_, mkFS_fresh _, ?_⟩
  · intro p
    match p with
    | 0 => exact ⟨fun n hn _ => (by cases hn), fun n x p h => (by cases h), rfl, rfl⟩
    | 1 => exact ⟨refA_name, rfl, rfl, rfl⟩
    | 2 => exact ⟨fun n hn _ => (by rw [List.mem_singleton.mp hn]; exact refA_name), fun n x p h => (by cases h), rfl, rfl⟩
    | p + 3 => exact refA_name
  · decide +kernel

/-- two loose references with the same value -/
def repo2 : FS := mkFS [(refA, b!"11\n"), (refB, b!"11\n")]

/-- a packer and a writer of "refs/b" -/
def tasksPW : Pid → Task
  | 0 => .pack ⟨[refA, refB], noPeel, opts⟩
  | 1 => .write ⟨refB, .oid [0x22], some [0x11], none, true, opts⟩
  | _ => .read refA

/-- the packer packs both and removes "refs/a"; the writer updates "refs/b"; the packer locks "refs/b", and reading it fails -/
def badRead : List (Pid × Bool) := turns 0 21 ++ turns 1 30 ++ turns 0 5 ++ [(0, true)] ++ turns 0 30

/-- **C19 (negative: read errors).** `packed_remove_loose` does not stop when it cannot read a loose file: it looks at the content of the
previous reference instead.  If that content is the packed value, the loose file is removed unseen, and an update is lost. -/
theorem C19_read_error_loses_an_update :
    (∀ p, (tasksPW p).Valid 1) ∧ Fresh repo2 ∧
    Run (exec ⟨true, true⟩) (start 1 tasksPW repo2) (sched badRead (start 1 tasksPW repo2)) ∧
    code (result ((sched badRead (start 1 tasksPW repo2)).procs 1)) = some 0 ∧
    val 1 (sched badRead (start 1 tasksPW repo2)).st refB = .ok (.oid [0x11]) := by
  refine ⟨?_, mkFS_fresh _, sched_run ⟨true, true⟩ _ (fun _ _ _ => ⟨rfl, rfl⟩) _ _ .start, ?_⟩
  · intro p
    match p with
    | 0 =>
      refine ⟨fun n hn _ => ?_, fun n x p h => (by cases h), rfl, rfl⟩
      simp only [List.mem_cons, List.not_mem_nil, or_false] at hn
      rcases hn with rfl | rfl
      · exact refA_name
      · exact refB_name
    | 1 => exact ⟨refB_name, rfl, rfl, rfl⟩
    | p + 2 => exact refA_name
  · decide +kernel

/-- a symbolic reference -/
def repo3 : FS := mkFS [(refA, b!"ref: refs/x\n")]

def tasksRW : Pid → Task
  | 0 => .write ⟨refA, .sym b!"refs/xyz", none, some b!"refs/x", true, opts⟩
  | _ => .read refA

/-- **C18 (negative: torn reads).** A loose file is read in two steps, its size first.  A reader that runs between them sees a value the
reference never had: here "refs/x" is changed to "refs/xyz", and a reader gets "refs/xy".  No call fails, the setup is the one of C18. -/
theorem C18_torn_read :
    Setup 1 ⟨false, false⟩ tasksRW repo3 ∧ ∃ l : List (Pid × Bool), (∀ x ∈ l, x.2 = false) ∧
      found (result ((sched l (start 1 tasksRW repo3)).procs 1)) = some (.ok (.sym b!"refs/xy")) ∧
      val 1 repo3 refA = .ok (.sym b!"refs/x") ∧
      val 1 (sched l (start 1 tasksRW repo3)).st refA = .ok (.sym b!"refs/xyz") := by
  refine ⟨⟨by decide, mkFS_fresh _, ?_, ?_, ?_, rfl, fun _ _ => rfl⟩, turns 1 1 ++ turns 0 30 ++ turns 1 5, by decide +kernel, by decide +kernel⟩
  · intro p
    match p with
    | 0 =>
      refine ⟨refA_name, ⟨by decide, by decide, ?_⟩, rfl, rfl⟩
      intro c hc; revert hc; revert c; decide +kernel
    | p + 1 => exact refA_name
  · intro p q hp
    match p with
    | 0 => exact hp.elim
    | p + 1 => exact hp.elim
  · intro p hp
    match p with
    | 0 => exact hp.elim
    | p + 1 => exact hp.elim

end Verif.RefDb
