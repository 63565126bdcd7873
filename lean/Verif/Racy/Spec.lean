import Verif.Base
/-! # What the timing property speaks of: a file, a clock, and what people and programs do -/
namespace Verif.Racy.Spec

/-- a time of the file system, as `struct timespec` has it -/
structure Time where
  sec : Int
  nsec : Nat
  deriving DecidableEq, Repr

/-- times a file system gives: after 1970 and before 2038 -/
def Time.Valid (t : Time) : Prop := 0 < t.sec ∧ t.sec < 2 ^ 31 ∧ t.nsec < 10 ^ 9

/-- not later -/
def Time.le (a b : Time) : Prop := a.sec < b.sec ∨ (a.sec = b.sec ∧ a.nsec ≤ b.nsec)

instance (t : Time) : Decidable t.Valid := by unfold Time.Valid; infer_instance
instance (a b : Time) : Decidable (a.le b) := by unfold Time.le; infer_instance

/-- a regular file of the working directory; `owner` stands for the inode number and the user and group ids -/
structure File where
  content : Bytes
  exec : Bool
  mtime : Time
  ctime : Time
  owner : Nat
  deriving DecidableEq, Repr

/-- what can happen. The first four are done by the world, the others by the `p`-th program that uses the library; what takes it time is in two parts. -/
inductive Event where
  /-- it gets later -/
  | tick (t : Time)
  /-- the file is written (or created, or replaced) -/
  | edit (content : Bytes) (exec : Bool) (owner : Nat)
  /-- the file is removed -/
  | remove
  /-- `git_index_add_bypath` gets the file's data -/
  | addStat (p : Nat)
  /-- … and then reads the file and has the index entry -/
  | addRead (p : Nat)
  /-- `git_diff_index_to_workdir` (`git_status_list_new`) with `GIT_DIFF_UPDATE_INDEX` gets the file's data -/
  | diffStat (p : Nat)
  /-- … and compares it with the entry -/
  | diffRead (p : Nat)
  /-- `git_index_write` looks for entries it cannot trust -/
  | check (p : Nat)
  /-- … and then writes the index -/
  | commit (p : Nat)
  /-- `git_index_read` finds an index that is not the one it has, and reads it -/
  | read (p : Nat)
  deriving DecidableEq, Repr

end Verif.Racy.Spec
