import Verif.Patch.ModelEmit
import Verif.Strtol.Model
/-! # Reading the hunks of a patch (src/libgit2/patch_parse.c, src/libgit2/parse.c)

`rest` is what remains to be read from the current place in the current line on. -/
namespace Verif.Patch

/-- the rest of the line with its newline: `git__linenlen`, src/util/util.c:324-328 -/
def lineOf : Bytes → Bytes
  | [] => []
  | c :: r => if c = c!"\n" then [c] else c :: lineOf r

/-- `git_parse_advance_line`: src/libgit2/parse.c:35-41 -/
def afterLine : Bytes → Bytes
  | [] => []
  | c :: r => if c = c!"\n" then r else afterLine r

/-- `git_parse_ctx_contains`: src/libgit2/parse.h:34-38 -/
def contains (rest s : Bytes) : Bool := s.length ≤ (lineOf rest).length ∧ rest.take s.length = s

/-- `git_parse_advance_expected`: src/libgit2/parse.c:50-63 -/
def expect (rest s : Bytes) : Res Bytes := if contains rest s then .ok (rest.drop s.length) else .err (-1)

/-- `parse_int`: src/libgit2/patch_parse.c:498-507, and `git_parse_advance_digit`, src/libgit2/parse.c:90-103 -/
def parseInt (rest : Bytes) : Res (Int × Bytes) :=
  if (lineOf rest).length < 1 ∨ ¬ rest.head?.any isDigit then .err (-1)
  else
    Strtol.strntol64 (lineOf rest) 10 >>= fun r =>
    if (r.1 + 2 ^ 31) % 2 ^ 32 - 2 ^ 31 ≠ r.1 then .err (-1) else .ok (r.1, rest.drop ((lineOf rest).length - r.2.length))

/-- a start and an optional count: src/libgit2/patch_parse.c:519-527, 529-537 -/
def parseRange (rest : Bytes) : Res ((Int × Int) × Bytes) :=
  parseInt rest >>= fun a =>
  if contains a.2 b!"," then parseInt (a.2.drop 1) >>= fun b => .ok ((a.1, b.1), b.2) else .ok ((a.1, 1), a.2)

/-- `parse_hunk_header`: src/libgit2/patch_parse.c:509-561 -/
def parseHeader (rest : Bytes) : Res (Hunk × Bytes) :=
  expect rest b!"@@ -" >>= fun r => parseRange r >>= fun o => expect o.2 b!" +" >>= fun r => parseRange r >>= fun n =>
  expect n.2 b!" @@" >>= fun r =>
  let after := afterLine r
  if o.1.2 = 0 ∧ n.1.2 = 0 then .err (-1)
  else if rest.length - after.length > 127 then .err (-1)
  else .ok ({ oldStart := o.1.1, oldLines := o.1.2, newStart := n.1.1, newLines := n.1.2, header := rest.take (rest.length - after.length), lines := [] }, after)

/-- the line that is kept of a text with its length: `git__strndup`, src/util/alloc.c:63-74 -/
def dupLine (origin : Origin) (t : Bytes) : Line := { origin := origin, buf := t.takeWhile (· ≠ 0) ++ [0], len := t.length }

/-- `eof_for_origin`: src/libgit2/patch_parse.c:563-569 -/
def eofFor (o : Option Origin) : Origin :=
  if o = some .addition then .delEof else if o = some .deletion then .addEof else .contextEof

/-- whether a number is no int [git__is_int: src/libgit2/patch_parse.c:502] -/
def noInt (x : Int) : Bool := x < -(2 ^ 31) ∨ 2 ^ 31 ≤ x

/-- the loop of `parse_hunk_body`: src/libgit2/patch_parse.c:582-673. The lines, what is left of the two counts, the last origin and the rest -/
def parseBody (h : Hunk) : Nat → Bytes → Int → Int → Option Origin → Res (List Line × (Int × Int) × Option Origin × Bytes)
  | 0, rest, oldlines, newlines, last => .ok ([], (oldlines, newlines), last, rest)
  | fuel + 1, rest, oldlines, newlines, last =>
    if rest.length > 1 ∧ (oldlines ≠ 0 ∨ newlines ≠ 0) ∧ contains rest b!"@@ -" = false then
      if noInt (h.oldStart + h.oldLines) ∨ noInt (h.oldStart + h.oldLines - oldlines) ∨ noInt (h.newStart + h.newLines) ∨
        noInt (h.newStart + h.newLines - newlines) then .err (-1)
      else if (lineOf rest).getLast? ≠ some c!"\n" then .err (-1)
      else
        let c := rest.headD 0
        (if c = c!"\n" then .ok (0, Origin.context, oldlines - 1, newlines - 1)
          else if c = c!" " then .ok (1, Origin.context, oldlines - 1, newlines - 1)
          else if c = c!"-" then .ok (1, Origin.deletion, oldlines - 1, newlines)
          else if c = c!"+" then .ok (1, Origin.addition, oldlines, newlines - 1)
          else if c = c!"\\" ∧ oldlines = 0 then .ok (0, eofFor last, oldlines, newlines)
          else .err (-1)) >>= fun (k : Nat × Origin × Int × Int) =>
        parseBody h fuel (afterLine rest) k.2.2.1 k.2.2.2 (some k.2.1) >>= fun r =>
        .ok (dupLine k.2.1 ((lineOf rest).drop k.1) :: r.1, r.2)
    else .ok ([], (oldlines, newlines), last, rest)

/-- `parse_hunk_body`: src/libgit2/patch_parse.c:571-715; `before` is whether there are lines in the patch before the hunk. A line before the marker
always has bytes -/
def parseHunkBody (h : Hunk) (before : Bool) (rest : Bytes) : Res (Hunk × Bytes) :=
  parseBody h rest.length rest h.oldLines h.newLines none >>= fun r =>
  if r.2.1.1 ≠ 0 ∨ r.2.1.2 ≠ 0 then .err (-1)
  else if contains r.2.2.2 b!"\\ " ∧ (before ∨ r.1 ≠ []) then
    .ok ({ h with lines := r.1 ++ [dupLine (eofFor r.2.2.1) (lineOf r.2.2.2)] }, afterLine r.2.2.2)
  else .ok ({ h with lines := r.1 }, r.2.2.2)

/-- `parse_patch_hunks`: src/libgit2/patch_parse.c:911-936 -/
def parseHunks : Nat → Bool → Bytes → Res (List Hunk × Bytes)
  | 0, _, rest => .ok ([], rest)
  | fuel + 1, before, rest =>
    if contains rest b!"@@ -" then
      parseHeader rest >>= fun h => parseHunkBody h.1 before h.2 >>= fun b =>
      parseHunks fuel (before || !b.1.lines.isEmpty) b.2 >>= fun r => .ok (b.1 :: r.1, r.2)
    else .ok ([], rest)

/-- `parse_patch_hunks` on a text; the hunks and the rest [src/libgit2/patch_parse.c:911-936] -/
def parsePatch (text : Bytes) : Res (List Hunk × Bytes) := parseHunks text.length false text

end Verif.Patch
