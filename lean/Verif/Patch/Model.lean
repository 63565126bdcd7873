import Verif.Delta.Model
import Verif.Vec.Model
/-! # Applying a patch (src/libgit2/apply.c)

A patch holds hunks, each with its lines (in the C code the lines of all hunks are in one array and a hunk has the number of its first line; that is
always the place where its lines are). A line has the bytes that may be read at `content` and the length `content_len`: reading more bytes than there are
is undefined. Memory allocation does not fail. -/
namespace Verif.Patch

/-- `line->origin`: include/git2/diff.h:726-742 -/
inductive Origin where
  | context
  | addition
  | deletion
  | contextEof
  | addEof
  | delEof
  deriving DecidableEq, Repr

/-- `git_diff_line`: include/git2/diff.h:763-771; what is not used when a patch is applied or printed is left out -/
structure Line where
  origin : Origin
  buf : Bytes
  len : Nat
  deriving DecidableEq, Repr

/-- the bytes of a line [src/libgit2/apply.c:46-55] -/
def Line.text (l : Line) : Res Bytes := if l.len ≤ l.buf.length then .ok (l.buf.take l.len) else .ub

/-- `git_patch_hunk`: src/libgit2/patch.h:16-20, include/git2/diff.h:688-697; the four numbers are of type int -/
structure Hunk where
  oldStart : Int
  oldLines : Int
  newStart : Int
  newLines : Int
  header : Bytes
  lines : List Line
  deriving DecidableEq, Repr

/-- `GIT_EAPPLYFAIL`: include/git2/errors.h -/
def EAPPLYFAIL : Int := -35

/-- the pieces that end after a newline [src/libgit2/apply.c:59-92] -/
def splitLines : Bytes → List Bytes
  | [] => []
  | c :: r =>
    if c = c!"\n" then [c] :: splitLines r
    else match splitLines r with
      | [] => [[c]]
      | l :: ls => (c :: l) :: ls

/-- `patch_image_init_fromstr`: src/libgit2/apply.c:59-92. An image is a vector of pointers to lines, which may be null -/
def imageOf (source : Bytes) : List (Option Line) := (splitLines source).map fun l => some { origin := .context, buf := l, len := l.length }

/-- whether a line ends with a newline: `prev->content[prev->content_len - 1] == '\n'`, src/libgit2/apply.c:221 -/
def endsNl (l : Line) : Res Bool :=
  if l.len = 0 then .ub
  else match l.buf[l.len - 1]? with
    | some c => .ok (c = c!"\n")
    | none => .ub

/-- the three origins of a line that says that there is no newline: src/libgit2/apply.c:217-219 -/
def isEof (o : Origin) : Bool := o = .contextEof ∨ o = .delEof ∨ o = .addEof

/-- the lines of a hunk after the loop of `apply_hunk`, which shortens the line before a line that says that there is no newline:
src/libgit2/apply.c:206-225. The first argument is the line before -/
def shrink : Line → List Line → Res (List Line)
  | prev, [] => .ok [prev]
  | prev, l :: ls =>
    (if isEof l.origin then endsNl prev >>= fun b => .ok (if b then { prev with len := prev.len - 1 } else prev) else .ok prev) >>= fun prev =>
    shrink l ls >>= fun r => .ok (prev :: r)

/-- the loop of `apply_hunk` over the lines: src/libgit2/apply.c:206-241; a line that says that there is no newline and is the first has no line before it -/
def shrinkAll : List Line → Res (List Line)
  | [] => .ok []
  | l :: ls => shrink l ls

/-- the lines of a hunk in the preimage: src/libgit2/apply.c:225-235 -/
def preimage (lines : List Line) : List Line := lines.filter fun l => l.origin = .context ∨ l.origin = .deletion

/-- the lines of a hunk in the postimage: src/libgit2/apply.c:225-239 -/
def postimage (lines : List Line) : List Line := lines.filter fun l => l.origin = .context ∨ l.origin = .addition

/-- the loop of `match_hunk`: src/libgit2/apply.c:118-127 -/
def matchLines : List (Option Line) → List Line → Res Bool
  | _, [] => .ok true
  | some i :: is, p :: ps =>
    if p.len ≠ i.len then .ok false
    else p.text >>= fun a => i.text >>= fun b => if a ≠ b then .ok false else matchLines is ps
  | _, _ :: _ => .ub

/-- `match_hunk`: src/libgit2/apply.c:103-131 -/
def matchHunk (image : List (Option Line)) (pre : List Line) (linenum : Nat) : Res Bool :=
  if pre.length + linenum > image.length then .ok false else matchLines (image.drop linenum) pre

/-- `find_hunk_linenum`: src/libgit2/apply.c:133-149 -/
def findHunk (image : List (Option Line)) (pre : List Line) (linenum : Nat) : Res (Nat × Bool) :=
  let linenum := if linenum > image.length then image.length else linenum
  matchHunk image pre linenum >>= fun b => .ok (linenum, b)

/-- `git_vector_insert_null` and `git_vector_remove_range` as used here, on the elements of the vector: src/libgit2/apply.c:161-166;
src/util/vector.c:342-382 and `Verif.Vec` -/
def makeRoom (image : List (Option Line)) (linenum prelen postlen : Nat) : Res (List (Option Line)) :=
  if postlen > prelen then
    (if linenum ≤ image.length then .ok (image.take linenum ++ List.replicate (postlen - prelen) none ++ image.drop linenum) else .err (-1))
  else if prelen > postlen then
    (if linenum + (prelen - postlen) ≤ image.length then .ok (image.take linenum ++ image.drop (linenum + (prelen - postlen))) else .err (-1))
  else .ok image

/-- writes `lines` from position `at_` on: src/libgit2/apply.c:173-176 -/
def put (image : List (Option Line)) (at_ : Nat) : List Line → Res (List (Option Line))
  | [] => .ok image
  | l :: ls => if at_ < image.length then put (image.set at_ (some l)) (at_ + 1) ls else .ub

/-- `update_hunk`: src/libgit2/apply.c:151-180 -/
def updateHunk (image : List (Option Line)) (linenum : Nat) (pre post : List Line) : Res (List (Option Line)) :=
  makeRoom image linenum pre.length post.length >>= fun image => put image linenum post

/-- what `apply_hunks` keeps while hunks are applied: the image, and the fields of `apply_hunks_ctx`, src/libgit2/apply.c:181-185 -/
structure State where
  image : List (Option Line)
  skippedNew : Nat
  skippedOld : Nat
  deriving DecidableEq, Repr

/-- a number of type int as a `size_t` [no code: conversion of int] -/
def sizet (x : Int) : Nat := (x % 2 ^ 64).toNat

/-- the line a hunk is looked for at: src/libgit2/apply.c:244-251, with the arithmetic of `size_t` -/
def lineNum (st : State) (h : Hunk) : Nat := if h.newStart ≠ 0 then sizet (h.newStart - st.skippedNew + st.skippedOld - 1) else 0

/-- `apply_hunk`: src/libgit2/apply.c:188-267; `answer` is what the callback says about the hunk, zero if there is none. The hunk is changed, too -/
def applyHunk (answer : Int) (st : State) (h : Hunk) : Res (State × Hunk) :=
  if answer > 0 then
    .ok ({ st with skippedNew := sizet (st.skippedNew + h.newLines), skippedOld := sizet (st.skippedOld + h.oldLines) }, h)
  else if answer < 0 then .err answer
  else
    shrinkAll h.lines >>= fun lines =>
    findHunk st.image (preimage lines) (lineNum st h) >>= fun f =>
    if f.2 = false then .err EAPPLYFAIL
    else updateHunk st.image f.1 (preimage lines) (postimage lines) >>= fun image => .ok ({ st with image := image }, { h with lines := lines })

/-- the loop over the hunks: src/libgit2/apply.c:282-287; `answers` gives the answer for each -/
def applyAll (answers : Nat → Int) : Nat → State → List Hunk → Res (State × List Hunk)
  | _, st, [] => .ok (st, [])
  | k, st, h :: hs =>
    applyHunk (answers k) st h >>= fun r => applyAll answers (k + 1) r.1 hs >>= fun s => .ok (s.1, r.2 :: s.2)

/-- the loop that writes the lines: src/libgit2/apply.c:289-291 -/
def render : List (Option Line) → Res Bytes
  | [] => .ok []
  | some l :: ls => l.text >>= fun a => render ls >>= fun r => .ok (a ++ r)
  | none :: _ => .ub

/-- `apply_hunks`: src/libgit2/apply.c:269-297 -/
def applyHunks (answers : Nat → Int) (source : Bytes) (hunks : List Hunk) : Res (Bytes × List Hunk) :=
  applyAll answers 0 { image := imageOf source, skippedNew := 0, skippedOld := 0 } hunks >>= fun r => render r.1.image >>= fun out => .ok (out, r.2)

/-- `git_diff_binary_t`: include/git2/diff.h:500-509 -/
inductive BinaryType where
  | none
  | literal
  | delta
  deriving DecidableEq, Repr

/-- `git_diff_binary_file`: include/git2/diff.h:512-525 -/
structure BinaryFile where
  type : BinaryType
  data : Bytes
  inflatedLen : Nat
  deriving DecidableEq, Repr

/-- `apply_binary_delta` to an empty buffer: src/libgit2/apply.c:299-345; `inflate` stands for `git_zstream_inflatebuf` -/
def applyBinaryDelta (inflate : Bytes → Res Bytes) (source : Bytes) (f : BinaryFile) : Res Bytes :=
  if f.data.length = 0 then .ok source
  else
    inflate f.data >>= fun inflated =>
    if inflated.length ≠ f.inflatedLen then .err EAPPLYFAIL
    else match f.type with
      | .delta => Delta.apply source inflated
      | .literal => .ok inflated
      | .none => .err EAPPLYFAIL

/-- the binary part of a patch: src/libgit2/diff.h:528-548 -/
structure Binary where
  containsData : Bool
  oldFile : BinaryFile
  newFile : BinaryFile
  deriving DecidableEq, Repr

/-- `apply_binary`: src/libgit2/apply.c:347-387 -/
def applyBinary (inflate : Bytes → Res Bytes) (source : Bytes) (b : Binary) : Res Bytes :=
  if b.containsData = false then .err EAPPLYFAIL
  else if b.oldFile.data.length = 0 ∧ b.newFile.data.length = 0 then .ok []
  else
    applyBinaryDelta inflate source b.newFile >>= fun out =>
    applyBinaryDelta inflate out b.oldFile >>= fun reverse =>
    if source.length ≠ reverse.length ∨ source ≠ reverse then .err EAPPLYFAIL else .ok out

/-- what a patch changes: hunks, or a binary file [src/libgit2/patch.h:22-39] -/
inductive Body where
  | hunks (hs : List Hunk)
  | binary (b : Binary)

/-- the contents `git_apply__patch` gives: src/libgit2/apply.c:389-463; `deleted` is whether the patch deletes the file -/
def applyPatch (inflate : Bytes → Res Bytes) (answers : Nat → Int) (source : Bytes) (deleted : Bool) (body : Body) : Res Bytes :=
  (match body with
    | .binary b => applyBinary inflate source b
    | .hunks [] => .ok source
    | .hunks hs => applyHunks answers source hs >>= fun r => .ok r.1) >>= fun out =>
  if deleted ∧ out.length > 0 then .err EAPPLYFAIL else .ok out

end Verif.Patch
