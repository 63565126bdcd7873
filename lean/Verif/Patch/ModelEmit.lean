import Verif.Patch.Model
import Verif.Utf8.Model
import Verif.Dec
/-! # A patch made from two files and printed (deps/xdiff/xemit.c, deps/xdiff/xutils.c, src/libgit2/diff_xdiff.c, src/libgit2/diff_print.c)

The script of changes is given; it is found by `xdl_do_diff`, which is not modelled. No change is marked to be ignored (that happens only with
`GIT_DIFF_IGNORE_BLANK_LINES`) and functions are not shown as context (libgit2 never asks for it). -/
namespace Verif.Patch

/-- `xdchange_t`: deps/xdiff/xdiffi.h; `chg1` lines from number `i1` on of the old file become `chg2` lines from `i2` on of the new one -/
structure Change where
  i1 : Nat
  chg1 : Nat
  i2 : Nat
  chg2 : Nat
  deriving DecidableEq, Repr

/-- `xdl_get_hunk` for changes that are not ignored: deps/xdiff/xemit.c:52-94. The changes after `c` that are in the same hunk, and those that are not -/
def getHunk (maxCommon : Nat) : Change → List Change → List Change × List Change
  | _, [] => ([], [])
  | c, d :: ds =>
    if d.i1 - (c.i1 + c.chg1) > maxCommon then ([], d :: ds)
    else (d :: (getHunk maxCommon d ds).1, (getHunk maxCommon d ds).2)

/-- the text of the marker: deps/xdiff/xutils.c:49 -/
def noNewline : Bytes := b!"\n\\ No newline at end of file\n"

/-- a line of the patch: `xdl_emit_diffrec`, deps/xdiff/xutils.c:39-59, and `git_xdiff_cb`, src/libgit2/diff_xdiff.c:155-198 -/
def emitRecord (origin : Origin) (rec : Bytes) : List Line :=
  { origin := origin, buf := rec, len := rec.length } ::
    (if 0 < rec.length ∧ rec.getLast? ≠ some c!"\n" then
      [{ origin := (if origin = .addition then .delEof else if origin = .deletion then .addEof else .contextEof), buf := noNewline, len := noNewline.length }]
    else [])

/-- the records from number `a` up to `b`: the loops of `xdl_emit_diff`, deps/xdiff/xemit.c:287-289 and others -/
def emitRange (recs : List Bytes) (origin : Origin) (a b : Nat) : List Line := ((recs.take b).drop a).flatMap (emitRecord origin)

/-- the changes of a hunk and the lines between them: deps/xdiff/xemit.c:291-317; `s1` and `s2` are where the change before ended -/
def emitChanges (old new : List Bytes) : Nat → Nat → List Change → List Line
  | _, _, [] => []
  | s1, s2, c :: cs =>
    emitRange new .context s2 (s2 + min (c.i1 - s1) (c.i2 - s2)) ++ emitRange old .deletion c.i1 (c.i1 + c.chg1) ++
      emitRange new .addition c.i2 (c.i2 + c.chg2) ++ emitChanges old new (c.i1 + c.chg1) (c.i2 + c.chg2) cs

/-- `xdl_format_hunk_hdr`: deps/xdiff/xutils.c:343-390; `func` is the line of the function, empty if there is none -/
def formatHeader (s1 c1 s2 c2 : Nat) (func : Bytes) : Bytes :=
  let t := b!"@@ -" ++ decimal (if c1 ≠ 0 then s1 else s1 - 1) ++ (if c1 ≠ 1 then b!"," ++ decimal c1 else []) ++
    b!" +" ++ decimal (if c2 ≠ 0 then s2 else s2 - 1) ++ (if c2 ≠ 1 then b!"," ++ decimal c2 else []) ++ b!" @@"
  let t := if func.length ≠ 0 then t ++ b!" " ++ func.take (128 - (t.length + 1) - 1) else t
  t ++ b!"\n"

/-- `git__isdigit`: src/util/ctype_compat.h -/
def isDigit (c : UInt8) : Bool := 48 ≤ c ∧ c ≤ 57

/-- the digits of `git_xdiff_scan_int`: src/libgit2/diff_xdiff.c:22-24, where a number that is no int is undefined -/
def scanDigits : Nat → Bytes → Res (Nat × Bytes)
  | v, [] => .ok (v, [])
  | v, c :: cs => if isDigit c then (if v * 10 + (c.toNat - 48) < 2 ^ 31 then scanDigits (v * 10 + (c.toNat - 48)) cs else .ub) else .ok (v, c :: cs)

/-- `git_xdiff_scan_int`: src/libgit2/diff_xdiff.c:16-28 -/
def scanInt (s : Bytes) : Res (Nat × Bytes) :=
  let s := s.dropWhile fun c => c ≠ 0 ∧ isDigit c = false
  if (s.head?.any isDigit) then scanDigits 0 s else .err (-1)

/-- a start and an optional count: src/libgit2/diff_xdiff.c:35-41, 42-47 -/
def scanRange (s : Bytes) : Res ((Nat × Nat) × Bytes) :=
  scanInt s >>= fun a =>
  if a.2.head? = some c!"," then scanInt a.2 >>= fun b => .ok ((a.1, b.1), b.2) else .ok ((a.1, 1), a.2)

/-- the part of `git_xdiff_cb` for the header of a hunk: src/libgit2/diff_xdiff.c:30-56, 119-141 -/
def readHeader (text : Bytes) : Res Hunk :=
  if text.head? ≠ some c!"@" then .err (-1)
  else
    scanRange text >>= fun o => scanRange o.2 >>= fun n =>
    let header := text.take 127
    Utf8.validBufLength header >>= fun k =>
    let header := if k < header.length then header.take k ++ b!"\n" else header
    .ok { oldStart := o.1.1, oldLines := o.1.2, newStart := n.1.1, newLines := n.1.2, header := header, lines := [] }

/-- one hunk of `xdl_emit_diff`: deps/xdiff/xemit.c:174-325, from the first change and the others of the hunk -/
def emitHunk (ctxlen : Nat) (func : Bytes) (old new : List Bytes) (c : Change) (cs : List Change) : Res Hunk :=
  let s1 := c.i1 - ctxlen
  let s2 := c.i2 - ctxlen
  let last := (c :: cs).getLast (by simp)
  let lctx := min (min ctxlen (old.length - (last.i1 + last.chg1))) (new.length - (last.i2 + last.chg2))
  let e1 := last.i1 + last.chg1 + lctx
  let e2 := last.i2 + last.chg2 + lctx
  readHeader (formatHeader (s1 + 1) (e1 - s1) (s2 + 1) (e2 - s2) func) >>= fun h =>
  .ok { h with lines := emitRange new .context s2 c.i2 ++ emitChanges old new c.i1 c.i2 (c :: cs) ++ emitRange new .context (last.i2 + last.chg2) e2 }

theorem getHunk_length (m : Nat) : ∀ (cs : List Change) (c : Change), (getHunk m c cs).2.length ≤ cs.length := by
  intro cs
  induction cs with
  | nil => intro c; exact Nat.le_refl _
  | cons d ds ih =>
    intro c
    rw [getHunk]
    split
    · exact Nat.le_refl _
    · exact Nat.le_succ_of_le (ih d)

/-- `xdl_emit_diff`: deps/xdiff/xemit.c:167-330; `funcs` gives the line of the function for the hunk that begins with a change -/
def emitDiff (ctxlen interhunk : Nat) (funcs : Change → Bytes) (old new : List Bytes) : List Change → Res (List Hunk)
  | [] => .ok []
  | c :: cs =>
    emitHunk ctxlen (funcs c) old new c (getHunk (2 * ctxlen + interhunk) c cs).1 >>= fun h =>
    emitDiff ctxlen interhunk funcs old new (getHunk (2 * ctxlen + interhunk) c cs).2 >>= fun hs => .ok (h :: hs)
termination_by cs => cs.length
decreasing_by
  have := getHunk_length (2 * ctxlen + interhunk) cs c
  simp only [List.length_cons]
  omega

/-- a line of a patch as text: `git_diff_print_callback__to_buf`, src/libgit2/diff_print.c:792-812 -/
def printLine (l : Line) : Res Bytes :=
  l.text >>= fun t => .ok ((match l.origin with
    | .addition => b!"+"
    | .deletion => b!"-"
    | .context => b!" "
    | _ => []) ++ t)

/-- lines of a patch as text: src/libgit2/diff_print.c:727-744 -/
def printLines : List Line → Res Bytes
  | [] => .ok []
  | l :: ls => printLine l >>= fun a => printLines ls >>= fun r => .ok (a ++ r)

/-- the hunks of a patch as text, after the header of the file: src/libgit2/diff_print.c:699-744 -/
def printHunks : List Hunk → Res Bytes
  | [] => .ok []
  | h :: hs => printLines h.lines >>= fun a => printHunks hs >>= fun r => .ok (h.header ++ a ++ r)

end Verif.Patch
