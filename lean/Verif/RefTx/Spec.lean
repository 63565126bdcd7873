import Verif.Base
/-! # Specification: transactions on references

What is asked of a transaction, what becomes of a reference, and what others may do meanwhile. -/
namespace Verif.RefTx

abbrev Name := Bytes

/-- what a reference is -/
inductive Val where
  | oid (id : Bytes)
  | sym (target : Bytes)
  deriving DecidableEq, Repr

/-- who has the lock file of a reference -/
inductive Holder where
  | us
  | other
  deriving DecidableEq, Repr

/-- the calls of a transaction -/
inductive Call where
  | lock (n : Name)
  | setTarget (n : Name) (id : Bytes) (sig msg : Option Bytes)
  | setSymbolic (n : Name) (target : Bytes) (sig msg : Option Bytes)
  | remove (n : Name)
  | setReflog (n : Name) (logName : Name) (log : List Bytes)
  deriving DecidableEq, Repr

/-- the repository: references, reflogs, lock files. `out` is not in the code: it is, for every reference, the values it had at the moments when
the transaction let go of its lock. -/
structure World where
  refs : Name → Option Val
  logs : Name → List Bytes
  lock : Name → Option Holder
  out : Name → List (Option Val)
  tick : Nat

namespace Spec

/-- what is wanted of a reference -/
inductive Want where
  | keep
  | value (v : Val)
  | gone
  deriving DecidableEq, Repr

/-- what one more call that succeeded (returned 0) wants of a reference: a removal is never taken back -/
def Want.next (n : Name) (w : Want) (c : Call × Int) : Want :=
  if c.2 ≠ 0 ∨ w = .gone then w
  else match c.1 with
    | .setTarget m id _ _ => if m = n then .value (.oid id) else w
    | .setSymbolic m t _ _ => if m = n then .value (.sym t) else w
    | .remove m => if m = n then .gone else w
    | _ => w

/-- what is wanted of a reference after some calls, with what they returned -/
def wanted (n : Name) (calls : List (Call × Int)) : Want := calls.foldl (Want.next n) .keep

/-- the value that is wanted, given the one before -/
def Want.apply (old : Option Val) : Want → Option Val
  | .keep => old
  | .value v => some v
  | .gone => none

/-- the reference was locked by one of the calls -/
def locked (n : Name) (calls : List (Call × Int)) : Prop := (Call.lock n, (0 : Int)) ∈ calls

/-- what others do to a repository: they do not touch a reference we have locked, nor its lock file, and do not act as us (C18) -/
structure Fair (move : Nat → World → World) : Prop where
  refs : ∀ t w n, w.lock n = some .us → (move t w).refs n = w.refs n
  lock : ∀ t w n, (move t w).lock n = some .us ↔ w.lock n = some .us

end Spec
end Verif.RefTx
