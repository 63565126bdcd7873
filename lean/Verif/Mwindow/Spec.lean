import Verif.Base
/-! # What the properties of memory windows speak of: programs that look at files through cursors -/
namespace Verif.Mwindow.Spec

/-- where a pointer points: so many bytes into the `win`-th window that was ever made -/
structure Ptr where
  win : Nat
  delta : Nat
  deriving DecidableEq, Repr

/-- calls, each of which is done under one lock, and what the files do -/
inductive Op where
  /-- `git_mwindow_open`: the cursor `c` wants `extra` bytes of the file `f` from `off`; `ok1` and `ok2` say whether the system maps memory the first and the second time it is asked -/
  | look (c f off extra : Nat) (ok1 ok2 : Bool)
  /-- `git_mwindow_close` -/
  | leave (c : Nat)
  /-- `git_mwindow_file_register` -/
  | register (f : Nat)
  /-- `git_mwindow_file_deregister` -/
  | deregister (f : Nat)
  /-- `git_mwindow_free_all` -/
  | freeAll (f : Nat)
  /-- a file gets longer, as a pack that is being received does -/
  | append (f : Nat) (data : Bytes)
  deriving DecidableEq, Repr

/-- what a call gives -/
inductive Out where
  /-- a pointer, and how many bytes there are from it -/
  | ptr (p : Ptr) (left : Nat)
  /-- `NULL` -/
  | null
  /-- 0, or nothing -/
  | done
  /-- -1 -/
  | failed
  deriving DecidableEq, Repr

/-- what has happened, the last first -/
abbrev History := List (Op × Out)

/-- the bytes of a file after a history; `D` are those at the start -/
def content (D : Nat → Bytes) : History → Nat → Bytes
  | [], f => D f
  | (.append g data, _) :: h, f => if g = f then content D h f ++ data else content D h f
  | _ :: h, f => content D h f

/-- what a cursor has been given: the pointer, the number of bytes, the file and the offset, if it has not been left since -/
def holding : History → Nat → Option (Ptr × Nat × Nat × Nat)
  | [], _ => none
  | (.look d f off _ _ _, .ptr p left) :: h, c => if d = c then some (p, left, f, off) else holding h c
  | (.look d _ _ _ _ _, _) :: h, c => if d = c then none else holding h c
  | (.leave d, _) :: h, c => if d = c then none else holding h c
  | _ :: h, c => holding h c

/-- a call that asks for something that is there, by one of the (fewer than 2^64 - 1) cursors; a cursor is used for one file at a time -/
def Wise (D : Nat → Bytes) (h : History) : Op → Prop
  | .look c f off extra _ _ => c < 2 ^ 64 - 1 ∧ 0 < extra ∧ off + extra ≤ (content D h f).length ∧
      ∀ p left g o, holding h c = some (p, left, g, o) → g = f
  | .leave c => c < 2 ^ 64 - 1
  | _ => True

/-- all calls asked for something that was there, and those that were given nothing had nothing before -/
def Careful (D : Nat → Bytes) : History → Prop
  | [] => True
  | (op, out) :: h => Careful D h ∧ Wise D h op ∧
      ∀ c f off extra b1 b2, op = .look c f off extra b1 b2 → out = .null → holding h c = none

/-- no call was given nothing -/
def NoneFailed (h : History) : Prop := ∀ op, (op, Out.null) ∉ h

end Verif.Mwindow.Spec
