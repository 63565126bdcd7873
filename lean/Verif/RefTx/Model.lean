import Verif.RefTx.Spec
/-! # Model of `src/libgit2/transaction.c`, on the file-system reference database

Others act before every step, and every step that can fail does so when the environment says so. A reference has one value: how it is kept, in a
loose file or in the packed file, is the subject of C18 and C19. Of the reflogs only what `git_transaction_set_reflog` does is modelled; lines
appended to them are given by the environment. Using a lock that was freed is `ub`. Transactions on configurations, and the failure of memory
allocation, are not modelled. -/
namespace Verif.RefTx

/-- what the outside does: `move` is what others do before step `t`, `fails` says whether step `t` fails, `lost` whether a deletion that fails has
taken the reference away, `line` is what is appended to the reflog of a reference, if anything [src/libgit2/refdb_fs.c:2284-2375] -/
structure Env where
  move : Nat → World → World
  fails : Nat → Bool
  lost : Nat → Bool
  line : World → Name → Val → Option Bytes → Option Bytes → Option Bytes

/-- GIT_ENOTFOUND and GIT_ELOCKED: include/git2/errors.h:32, :50 -/
def ENOTFOUND : Int := -3
/-- [include/git2/errors.h:50] -/
def ELOCKED : Int := -14

/-- a function changed at one name -/
def upd {α : Type} (f : Name → α) (n : Name) (x : α) : Name → α := fun m => if m = n then x else f m

/-- time passes: others act [stands between the system calls of src/libgit2/refdb_fs.c:1146-1240, :1619-1830] -/
def pass (E : Env) (w : World) : World := { E.move w.tick w with tick := w.tick + 1, out := w.out }

/-- `transaction_node`; `live` says that `payload` has not been freed, `value` is `ref_type` with `target` (`none` for `GIT_REFERENCE_INVALID`),
and `old`, which is not in the code, is the value the reference had when it was locked: src/libgit2/transaction.c:28-44 -/
structure Node where
  name : Name
  live : Bool
  value : Option Val
  reflog : Option (Name × List Bytes)
  message : Option Bytes
  sig : Option Bytes
  committed : Bool
  remove : Bool
  old : Option Val
  deriving DecidableEq, Repr

/-- `git_filebuf_cleanup` of the lock file: it is removed: src/util/filebuf.c:101-130. (The removal is taken to succeed.) -/
def cleanup (w : World) (n : Name) : World := { w with lock := upd w.lock n none, out := upd w.out n (w.out n ++ [w.refs n]) }

/-- `git_refdb_lock`, `refdb_fs_backend__lock` and `loose_lock`: src/libgit2/refdb.c:405-417, src/libgit2/refdb_fs.c:1146-1186, :1207-1222 -/
def backendLock (E : Env) (w : World) (n : Name) : Int × World :=
  let w := pass E w
  if E.fails w.tick then (-1, w)
  else if (w.lock n).isSome then (ELOCKED, w)
  else (0, { w with lock := upd w.lock n (some .us) })

/-- the appending to the reflogs in `refdb_fs_backend__write_tail`: src/libgit2/refdb_fs.c:1658-1671 -/
def appendLog (E : Env) (w : World) (n : Name) (v : Val) (sig msg : Option Bytes) : Int × World :=
  let w := pass E w
  if E.fails w.tick then (-1, w)
  else match E.line w n v sig msg with
    | some l => (0, { w with logs := upd w.logs n (w.logs n ++ [l]) })
    | none => (0, w)

/-- `refdb_fs_backend__write_tail` without an old value: src/libgit2/refdb_fs.c:1619-1678 -/
def writeTail (E : Env) (w : World) (n : Name) (v : Val) (updateReflog : Bool) (sig msg : Option Bytes) : Int × World :=
  let w := pass E w
  if E.fails w.tick then (-1, cleanup w n)
  else if w.refs n = some v then (0, cleanup w n)
  else
    let r := if updateReflog then appendLog E w n v sig msg else (0, w)
    if r.1 < 0 then (r.1, cleanup r.2 n)
    else
      let w := pass E r.2
      if E.fails w.tick then (-1, cleanup w n)
      else (0, cleanup { w with refs := upd w.refs n (some v) } n)

/-- `refdb_fs_backend__delete_tail` without an old value: src/libgit2/refdb_fs.c:1774-1830. The pruning of directories, which may fail after the
reference is gone, is the last step. -/
def deleteTail (E : Env) (w : World) (n : Name) : Int × World :=
  let w := pass E w
  if E.fails w.tick then (-1, cleanup (if E.lost w.tick then { w with refs := upd w.refs n none } else w) n)
  else if w.refs n = none then (ENOTFOUND, cleanup w n)
  else
    let w := pass E (cleanup { w with refs := upd w.refs n none } n)
    (if E.fails w.tick then -1 else 0, w)

/-- `git_transaction_nodemap_get`: src/libgit2/transaction.c:145 -/
def find (tx : List Node) (n : Name) : Option Node := List.find? (fun x => decide (x.name = n)) tx

/-- `git_transaction_nodemap_put`: src/libgit2/transaction.c:129 -/
def putNode (tx : List Node) (x : Node) : List Node := if (find tx x.name).isSome then tx.map (fun y => if y.name = x.name then x else y) else tx ++ [x]

/-- `git_transaction_lock_ref`: src/libgit2/transaction.c:112-138 -/
def lockRef (E : Env) (tx : List Node) (w : World) (n : Name) : Int × List Node × World :=
  let r := backendLock E w n
  if r.1 < 0 then (r.1, tx, r.2)
  else (0, putNode tx ⟨n, true, none, none, none, none, false, false, r.2.refs n⟩, r.2)

/-- `copy_common`, `log` being what `git_reference__log_signature` gives: src/libgit2/transaction.c:156-181 -/
def copyCommon (log : Option Bytes) (x : Node) (sig msg : Option Bytes) : Int × Node :=
  let x := if sig.isSome then { x with sig := sig } else x
  if x.sig = none ∧ log = none then (-1, x)
  else
    let x := if x.sig = none then { x with sig := log } else x
    (0, if msg.isSome then { x with message := msg } else x)

/-- `git_transaction_set_target` and `git_transaction_set_symbolic_target`: src/libgit2/transaction.c:183-224 -/
def setValue (log : Option Bytes) (tx : List Node) (n : Name) (v : Val) (sig msg : Option Bytes) : Int × List Node :=
  match find tx n with
  | none => (ENOTFOUND, tx)
  | some x =>
    let r := copyCommon log x sig msg
    if r.1 < 0 then (r.1, putNode tx r.2) else (0, putNode tx { r.2 with value := some v })

/-- `git_transaction_remove`: src/libgit2/transaction.c:226-238 -/
def remove (tx : List Node) (n : Name) : Int × List Node :=
  match find tx n with
  | none => (ENOTFOUND, tx)
  | some x => (0, putNode tx { x with remove := true, value := some (.oid []) })

/-- `git_transaction_set_reflog`, with `dup_reflog`, which keeps the name in the reflog: src/libgit2/transaction.c:240-299 -/
def setReflog (tx : List Node) (n logName : Name) (log : List Bytes) : Int × List Node :=
  match find tx n with
  | none => (ENOTFOUND, tx)
  | some x => (0, putNode tx { x with reflog := some (logName, log) })

/-- one call: src/libgit2/transaction.c:112-299. `git_reference__log_signature` fails when the environment says so. -/
def call (E : Env) (log : Bytes) (tx : List Node) (w : World) : Call → Int × List Node × World
  | .lock n => lockRef E tx w n
  | .setTarget n id sig msg =>
    let w := pass E w
    let r := setValue (if E.fails w.tick then none else some log) tx n (.oid id) sig msg
    (r.1, r.2, w)
  | .setSymbolic n t sig msg =>
    let w := pass E w
    let r := setValue (if E.fails w.tick then none else some log) tx n (.sym t) sig msg
    (r.1, r.2, w)
  | .remove n =>
    let r := remove tx n
    (r.1, r.2, pass E w)
  | .setReflog n m l =>
    let r := setReflog tx n m l
    (r.1, r.2, pass E w)

/-- calls, one after the other, with what they return [the calls of src/libgit2/transaction.c:112-299] -/
def calls (E : Env) (log : Bytes) : List Call → List Node → World → List (Call × Int) → List (Call × Int) × List Node × World
  | [], tx, w, tr => (tr, tx, w)
  | c :: cs, tx, w, tr =>
    let r := call E log tx w c
    calls E log cs r.2.1 r.2.2 (tr ++ [(c, r.1)])

/-- `update_target` with `git_refdb_unlock` and `refdb_fs_backend__unlock`: src/libgit2/transaction.c:301-331, src/libgit2/refdb.c:419-424,
src/libgit2/refdb_fs.c:1242-1257 -/
def updateTarget (E : Env) (w : World) (x : Node) (v : Val) : Int × World :=
  if x.remove then deleteTail E w x.name else writeTail E w x.name v x.reflog.isNone x.sig x.message

/-- `reflog_write`, `refdb_reflog_fs__write`, when it succeeds: the log named in the reflog is replaced: src/libgit2/transaction.c:350-353,
src/libgit2/refdb_fs.c:2246-2281 -/
def writeReflog (w : World) (x : Node) : World :=
  match x.reflog with
  | some q => { w with logs := upd w.logs q.1 q.2 }
  | none => w

/-- what is done for one node in `git_transaction_commit`: src/libgit2/transaction.c:348-364 -/
def commitNode (E : Env) (w : World) (x : Node) : Res (Int × Node × World) :=
  let w := pass E w
  if x.reflog.isSome ∧ E.fails w.tick then .ok (-1, x, w)
  else
    let w := writeReflog w x
    if ¬ x.live then .ub
    else match x.value with
      | none => .ok (0, { x with live := false, committed := true }, cleanup w x.name)
      | some v =>
        let r := updateTarget E w x v
        .ok (r.1, { x with live := false, committed := true }, r.2)

/-- `git_transaction_commit`, the nodes in the order of the map: src/libgit2/transaction.c:333-368 -/
def commit (E : Env) : World → List Node → Res (Int × List Node × World)
  | w, [] => .ok (0, [], w)
  | w, x :: xs => do
    let r ← commitNode E w x
    if r.1 < 0 then .ok (r.1, r.2.1 :: xs, r.2.2)
    else do
      let s ← commit E r.2.2 xs
      .ok (s.1, r.2.1 :: s.2.1, s.2.2)

/-- `git_transaction_free`: src/libgit2/transaction.c:370-401 -/
def free (E : Env) : World → List Node → Res World
  | w, [] => .ok w
  | w, x :: xs =>
    if x.committed then free E w xs
    else if ¬ x.live then .ub
    else free E (cleanup (pass E w) x.name) xs

end Verif.RefTx
