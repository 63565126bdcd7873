import Verif.Oid.Model
import Verif.Sig.Model
import Verif.Quote.Model
import Verif.ConfigFile.Model
/-! # Reference logs (src/libgit2/reflog.c, src/libgit2/refdb_fs.c)

A log file is the list of its bytes, `size` the number of bytes of an object id. Memory allocation does not fail. The path of the file, its
creation and the lock under which `git_reflog_write` replaces it (area `FileBuf`) are not modelled. -/
namespace Verif.Reflog
open Sig (Signature cstr)
open ConfigFile (lineOf afterLine)
open Quote (rtrim)

/-- `git_reflog_entry`: src/libgit2/reflog.h:19-26 -/
structure Entry where
  oldId : Bytes
  newId : Bytes
  committer : Signature
  msg : Option Bytes
  deriving DecidableEq, Repr

/-- `git_reflog`'s entries, in the order of the vector, which is the order of the file: src/libgit2/reflog.h:28-33 -/
abbrev Log := List Entry

/-! ### in memory -/

/-- `reflog_inverse_index`: src/libgit2/reflog.h:35-38 -/
def inverseIndex (idx total : Nat) : Nat := (total - 1) - idx

/-- `git_reflog_entrycount`: src/libgit2/reflog.c:148-152 -/
def entrycount (log : Log) : Nat := log.length

/-- `git_reflog_entry_byindex`: src/libgit2/reflog.c:154-163 -/
def byindex (log : Log) (idx : Nat) : Option Entry :=
  if log.length ≤ idx then none else log[inverseIndex idx log.length]?

/-- `git_oid_clear`: src/libgit2/oid.h -/
def zeroId (size : Nat) : Bytes := List.replicate size 0

/-- the loop that replaces newlines in `git_reflog_append`: src/libgit2/reflog.c:100-106 -/
def newlinesToSpaces (msg : Bytes) : Bytes := msg.map fun c => if c = c!"\n" then c!" " else c

/-- `git_reflog_append`: src/libgit2/reflog.c:73-124 -/
def append (size : Nat) (log : Log) (newId : Bytes) (committer : Signature) (msg : Option Bytes) : Log :=
  let oldId := match byindex log 0 with
    | none => zeroId size
    | some p => p.newId
  log ++ [{ oldId := oldId, newId := newId, committer := committer, msg := msg.map newlinesToSpaces }]

/-- changes the entry at an index of the API [src/libgit2/reflog.c:215-231] -/
def setOld (log : Log) (idx : Nat) (oldId : Bytes) : Log :=
  log.modify (inverseIndex idx log.length) fun e => { e with oldId := oldId }

/-- `GIT_ENOTFOUND`: include/git2/errors.h -/
def ENOTFOUND : Int := -3

/-- `git_reflog_drop`: src/libgit2/reflog.c:189-233 -/
def drop (size : Nat) (log : Log) (idx : Nat) (rewritePrevious : Bool) : Res Log :=
  let count := entrycount log
  match byindex log idx with
  | none => .err ENOTFOUND
  | some _ =>
    let log := log.eraseIdx (inverseIndex idx count)
    if !rewritePrevious then .ok log
    else if idx = 0 then .ok log
    else if count = 1 then .ok log
    else match byindex log (idx - 1) with
      | none => .ub
      | some _ =>
        if idx = count - 1 then .ok (setOld log (idx - 1) (zeroId size))
        else match byindex log idx with
          | none => .ub
          | some p => .ok (setOld log (idx - 1) p.newId)

/-! ### the file -/

/-- the loop over the buffer in `serialize_reflog_entry`: src/libgit2/refdb_fs.c:2203-2205; `n` is the bound `buf->size - 2` -/
def spacesBelow (n : Nat) (buf : Bytes) : Bytes := newlinesToSpaces (buf.take n) ++ buf.drop n

/-- `git_oid_tostr(raw, GIT_OID_MAX_HEXSIZE + 1, id)` and its use as a string: src/libgit2/refdb_fs.c:2184-2190 -/
def idText (size : Nat) (id : Bytes) : Res Bytes := Oid.tostr size (2 * size + 1) (some id) >>= fun t => .ok (cstr t)

/-- the message in `serialize_reflog_entry`: src/libgit2/refdb_fs.c:2197-2207 -/
def addMessage (buf : Bytes) (msg : Option Bytes) : Bytes :=
  match msg with
  | none => buf
  | some m =>
    let buf := buf ++ b!"\t" ++ m
    rtrim (spacesBelow (buf.length - 2) buf)

/-- `serialize_reflog_entry`: src/libgit2/refdb_fs.c:2174-2213 -/
def serialize (size : Nat) (e : Entry) : Res Bytes :=
  idText size e.oldId >>= fun rawOld =>
  idText size e.newId >>= fun rawNew =>
  .ok (addMessage (rtrim (rawOld ++ b!" " ++ rawNew ++ Sig.writebuf b!" " e.committer)) e.msg ++ b!"\n")

/-- the file written by `refdb_reflog_fs__write`: src/libgit2/refdb_fs.c:2246-2281 -/
def write (size : Nat) : Log → Res Bytes
  | [] => .ok []
  | e :: r => serialize size e >>= fun l => write size r >>= fun ls => .ok (l ++ ls)

/-- what `reflog_append` makes of the file, `git_futils_writebuffer` with `O_APPEND`: src/libgit2/refdb_fs.c:2329-2369 -/
def appendFile (size : Nat) (file : Bytes) (e : Entry) : Res Bytes := serialize size e >>= fun l => .ok (file ++ l)

/-- `git_parse_advance_oid`: src/libgit2/parse.c:105-116; the id and the rest of the line -/
def advanceOid (size : Nat) (line : Bytes) : Res (Bytes × Bytes) :=
  if line.length < 2 * size then .err (-1)
  else Oid.fromPrefix size line (2 * size) >>= fun id => .ok (id, line.drop (2 * size))

/-- `git_parse_advance_expected(&parser, " ", 1)`: src/libgit2/parse.c:42-56 -/
def advanceSpace (line : Bytes) : Res Bytes :=
  if line.length < 1 then .err (-1)
  else if line.head? ≠ some c!" " then .err (-1)
  else .ok (line.drop 1)

/-- the message behind the tab in `reflog_parse`: src/libgit2/refdb_fs.c:2037-2043; of an empty rest (the tab is the last byte of the
file), the byte before it is read, which is the tab -/
def lineMessage (line : Bytes) : Bytes :=
  cstr (if line.getLast? = some c!"\n" then line.take (line.length - 1) else line)

/-- one line in `reflog_parse`: src/libgit2/refdb_fs.c:2016-2052. `.err` leads to the label `next`, which skips the rest of the line -/
def parseEntry (size : Nat) (line : Bytes) : Res Entry :=
  advanceOid size line >>= fun o =>
  advanceSpace o.2 >>= fun l =>
  advanceOid size l >>= fun n =>
  let sig := n.2.takeWhile fun c => c ≠ c!"\t" ∧ c ≠ c!"\n"
  let rest := n.2.dropWhile fun c => c ≠ c!"\t" ∧ c ≠ c!"\n"
  Sig.parse sig [] 0 >>= fun s =>
  .ok { oldId := o.1, newId := n.1, committer := s.1,
        msg := if rest.head? = some c!"\t" then some (lineMessage (rest.drop 1)) else none }

/-- the loop of `reflog_parse`: src/libgit2/refdb_fs.c:2013-2056, over at most `fuel` lines. The parser's advance within a line, followed by
`git_parse_advance_line` over what is left of it, is the advance over the line. -/
def parseLoop (size : Nat) : Nat → Bytes → Res Log
  | 0, _ => .ok []
  | fuel + 1, text =>
    if text.length = 0 then .ok []
    else
      match parseEntry size (lineOf text) with
      | .ub => .ub
      | .err _ => parseLoop size fuel (afterLine text)
      | .ok e => parseLoop size fuel (afterLine text) >>= fun r => .ok (e :: r)

/-- `reflog_parse`: src/libgit2/refdb_fs.c:2006-2059; each line has at least one byte -/
def read (size : Nat) (text : Bytes) : Res Log := parseLoop size text.length text

end Verif.Reflog
