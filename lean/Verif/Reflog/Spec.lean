import Verif.Reflog.Model
import Verif.Sig.Props
import Verif.Quote.Spec
import Verif.Oid.Spec
/-! # Reference logs: vocabulary of the claims -/
namespace Verif.Reflog.Spec
open Sig (Signature)
open Quote.Spec (Space)

/-- a log without an entry missing: each entry starts from where the one before it in time (the one at the next index) arrived, the oldest one from
no object -/
def Linked (size : Nat) (log : Log) : Prop :=
  ∀ i e, byindex log i = some e → e.oldId = match byindex log (i + 1) with
    | none => List.replicate size 0
    | some p => p.newId

/-- a committer that can be written in a line of a log and read back -/
def Committer (s : Signature) : Prop := Sig.Writable s ∧ c!"\t" ∉ s.name ∧ c!"\t" ∉ s.email

/-- ids have their size, and the committer can be written -/
structure Good (size : Nat) (e : Entry) : Prop where
  old : e.oldId.length = size
  new : e.newId.length = size
  committer : Committer e.committer
  msg : ∀ m, e.msg = some m → 0 ∉ m

/-- `t` is `s` without trailing white space -/
def TrimsTo (s t : Bytes) : Prop := ∃ ws, s = t ++ ws ∧ (∀ c ∈ ws, Space c) ∧ ∀ c, t.getLast? = some c → ¬ Space c

/-- every newline replaced by a space -/
def OneLine (m : Bytes) : Bytes := m.map fun c => if c = c!"\n" then c!" " else c

/-- how a message reads after it was written: in one line, without trailing white space; none if it is blank. A newline before a last
character that is not white space is an end of the message. -/
def Kept (m : Option Bytes) (k : Option Bytes) : Prop :=
  match m with
  | none => k = none
  | some m =>
    (∃ a x, m = a ++ [c!"\n", x] ∧ ¬ Space x ∧ k = some (OneLine a)) ∨
    ((∀ a x, m = a ++ [c!"\n", x] → Space x) ∧ ∃ t, TrimsTo (OneLine m) t ∧ k = if t = [] then none else some t)

/-- `k` is how `e` reads after it was written: the sign of the time zone is the one written -/
structure SameAs (e k : Entry) : Prop where
  old : k.oldId = e.oldId
  new : k.newId = e.newId
  committer : k.committer = { e.committer with sign := Sig.written e.committer }
  msg : Kept e.msg k.msg

end Verif.Reflog.Spec
