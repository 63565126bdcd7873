import Verif.Xdiff.Model
/-! # Model of `deps/xdiff/xmerge.c` and `src/libgit2/merge_file.c`: merging three texts

Lines are compared byte by byte: the flags that ignore white space are not modelled. `XDL_MERGE_MINIMAL` is never asked for by libgit2. The search for differences is a parameter `diff`, from the lines
of two files to a list of changes (`xdl_do_diff`, `xdl_change_compact` and `xdl_build_script`); `git_merge_file` below uses `Xdiff.script`. Running out of memory is not modelled. Line numbers are
integers; with files of at most 1023 MiB none is too large for an `int`. -/
namespace Verif.MergeFile
open Verif.Patch (Change splitLines)

/-- `xdmerge_t` [deps/xdiff/xmerge.c:26-49]: `mode` is 0 for a conflict, 1 and 2 to take the first and the second side, 3 for both, 4 for changes that are the same -/
structure M where
  mode : Nat
  i0 : Int
  chg0 : Int
  i1 : Int
  chg1 : Int
  i2 : Int
  chg2 : Int
  deriving DecidableEq, Repr

/-- the lines of the ancestor and the two sides [deps/xdiff/xmerge.c:679-688] -/
structure Files where
  base : List Bytes
  ours : List Bytes
  theirs : List Bytes

/-- `count` records from number `i` on; reading others is undefined [deps/xdiff/xmerge.c:115-124] -/
def range (l : List Bytes) (i count : Int) : Res (List Bytes) :=
  if 0 ≤ i ∧ 0 ≤ count ∧ i + count ≤ l.length then .ok ((l.drop i.toNat).take count.toNat) else .ub

/-! ## Overlaying the two scripts -/

/-- whether `xdl_append_merge` makes the last region larger instead of adding one [deps/xdiff/xmerge.c:57] -/
def touches (last m : M) : Bool := decide (m.i1 ≤ last.i1 + last.chg1) || decide (m.i2 ≤ last.i2 + last.chg2)

/-- the last region made larger [deps/xdiff/xmerge.c:58-62] -/
def widen (last m : M) : M :=
  { last with mode := if m.mode ≠ last.mode then 0 else last.mode, chg0 := m.i0 + m.chg0 - last.i0, chg1 := m.i1 + m.chg1 - last.i1, chg2 := m.i2 + m.chg2 - last.i2 }

/-- `xdl_append_merge` [deps/xdiff/xmerge.c:51-80]: the regions that are finished by it, and the last one -/
def push (last : Option M) (m : M) : List M × M := match last with
  | none => ([], m)
  | some l => if touches l m then ([], widen l m) else ([l], m)

/-- `xdl_merge_cmp_lines`, 0 if it is `true` here [deps/xdiff/xmerge.c:97-111] -/
def sameLines (F : Files) (x1 x2 : Change) : Res Bool :=
  range F.ours x1.i2 x1.chg2 >>= fun a =>
  range F.theirs x2.i2 x1.chg2 >>= fun b =>
  .ok (decide (a = b))

/-- the changes are the same on both sides [deps/xdiff/xmerge.c:571-576] -/
def identical (F : Files) (x1 x2 : Change) : Res Bool :=
  if x1.i1 ≠ x2.i1 ∨ x1.chg1 ≠ x2.chg1 ∨ x1.chg2 ≠ x2.chg2 then .ok false else sameLines F x1 x2

/-- the region of the first side alone, when the next change of the second is `x2` [deps/xdiff/xmerge.c:537-544] -/
def first (x1 x2 : Change) : M := ⟨1, x1.i1, x1.chg1, x1.i2, x1.chg2, (x2.i2 : Int) - x2.i1 + x1.i1, x1.chg1⟩

/-- the region of the second side alone, when the next change of the first is `x1` [deps/xdiff/xmerge.c:554-561] -/
def second (x1 x2 : Change) : M := ⟨2, x2.i1, x2.chg1, (x1.i2 : Int) - x1.i1 + x2.i1, x2.chg1, x2.i2, x2.chg2⟩

/-- the region in conflict of two changes that overlap or touch [deps/xdiff/xmerge.c:577-600] -/
def conflict (x1 x2 : Change) : M :=
  let off : Int := (x1.i1 : Int) - x2.i1
  let ffo : Int := off + x1.chg1 - x2.chg1
  let i0 : Int := if 0 < off then (x1.i1 : Int) - off else x1.i1
  let i1 : Int := if 0 < off then (x1.i2 : Int) - off else x1.i2
  let i2 : Int := if 0 < off then x2.i2 else (x2.i2 : Int) + off
  let chg0 : Int := (x1.i1 : Int) + x1.chg1 - i0
  let chg1 : Int := (x1.i2 : Int) + x1.chg2 - i1
  let chg2 : Int := (x2.i2 : Int) + x2.chg2 - i2
  ⟨0, i0, if ffo < 0 then chg0 - ffo else chg0, i1, if ffo < 0 then chg1 - ffo else chg1, i2, if ffo < 0 then chg2 else chg2 + ffo⟩

/-- the region of a change of the first side when the second has no more [deps/xdiff/xmerge.c:620-625] -/
def restFirst (F : Files) (x1 : Change) : M := ⟨1, x1.i1, x1.chg1, x1.i2, x1.chg2, (x1.i1 : Int) + F.theirs.length - F.base.length, x1.chg1⟩

/-- the region of a change of the second side when the first has no more [deps/xdiff/xmerge.c:636-641] -/
def restSecond (F : Files) (x2 : Change) : M := ⟨2, x2.i1, x2.chg1, (x2.i1 : Int) + F.ours.length - F.base.length, x2.chg1, x2.i2, x2.chg2⟩

/-- what is left of a script whose first change ends at `e`, when the other ends at `e'` [deps/xdiff/xmerge.c:608-614] -/
def advance (x : Change) (xs : List Change) (e e' : Nat) : List Change := if e' ≥ e then xs else x :: xs

/-- the loops of `xdl_do_merge` [deps/xdiff/xmerge.c:532-650]; `fuel` bounds the number of turns -/
def overlay (F : Files) : Nat → List Change → List Change → Option M → Res (List M)
  | _, [], [], last => .ok last.toList
  | 0, _, _, _ => .ub
  | fuel + 1, x1 :: xs1, [], last =>
    overlay F fuel xs1 [] (some (push last (restFirst F x1)).2) >>= fun ms => .ok ((push last (restFirst F x1)).1 ++ ms)
  | fuel + 1, [], x2 :: xs2, last =>
    overlay F fuel [] xs2 (some (push last (restSecond F x2)).2) >>= fun ms => .ok ((push last (restSecond F x2)).1 ++ ms)
  | fuel + 1, x1 :: xs1, x2 :: xs2, last =>
    if x1.i1 + x1.chg1 < x2.i1 then
      overlay F fuel xs1 (x2 :: xs2) (some (push last (first x1 x2)).2) >>= fun ms => .ok ((push last (first x1 x2)).1 ++ ms)
    else if x2.i1 + x2.chg1 < x1.i1 then
      overlay F fuel (x1 :: xs1) xs2 (some (push last (second x1 x2)).2) >>= fun ms => .ok ((push last (second x1 x2)).1 ++ ms)
    else identical F x1 x2 >>= fun same =>
      if same then overlay F fuel (advance x1 xs1 (x1.i1 + x1.chg1) (x2.i1 + x2.chg1)) (advance x2 xs2 (x2.i1 + x2.chg1) (x1.i1 + x1.chg1)) last
      else overlay F fuel (advance x1 xs1 (x1.i1 + x1.chg1) (x2.i1 + x2.chg1)) (advance x2 xs2 (x2.i1 + x2.chg1) (x1.i1 + x1.chg1))
        (some (push last (conflict x1 x2)).2) >>= fun ms => .ok ((push last (conflict x1 x2)).1 ++ ms)

/-! ## Making conflicts smaller and larger -/

/-- one difference within a conflict. In C `i0` and `chg0` of all but the first are not initialised; they are read only for the styles in which conflicts are not refined
[deps/xdiff/xmerge.c:406-425] -/
def part (m : M) (c : Change) : M := { m with i1 := c.i1 + m.i1, chg1 := c.chg1, i2 := c.i2 + m.i2, chg2 := c.chg2 }

/-- what a conflict becomes: its differences, or no conflict if there are none [deps/xdiff/xmerge.c:399-426] -/
def parts (m : M) (cs : List Change) : List M := if cs = [] then [{ m with mode := 4 }] else cs.map (part m)

/-- `xdl_refine_conflicts` [deps/xdiff/xmerge.c:360-430]. The records of a part of a file are those of its text. -/
def refine (diff : List Bytes → List Bytes → Res (List Change)) (F : Files) : List M → Res (List M)
  | [] => .ok []
  | m :: ms =>
    if m.mode ≠ 0 ∨ m.chg1 = 0 ∨ m.chg2 = 0 then refine diff F ms >>= fun r => .ok (m :: r)
    else
      range F.ours m.i1 m.chg1 >>= fun a =>
      range F.theirs m.i2 m.chg2 >>= fun b =>
      diff a b >>= fun cs =>
      refine diff F ms >>= fun r => .ok (parts m cs ++ r)

/-- `isalnum` [deps/xdiff/xmerge.c:432-438] -/
def isAlnum (c : UInt8) : Bool :=
  (c!"0" ≤ c && c ≤ c!"9") || (c!"a" ≤ c && c ≤ c!"z") || (c!"A" ≤ c && c ≤ c!"Z")

/-- `lines_contain_alnum` [deps/xdiff/xmerge.c:440-447] -/
def containAlnum (F : Files) (i chg : Int) : Res Bool := range F.ours i chg >>= fun ls => .ok (ls.any fun l => l.any isAlnum)

/-- whether two regions stay apart [deps/xdiff/xmerge.c:482-485] -/
def apart (F : Files) (alnum : Bool) (m n : M) : Res Bool :=
  if m.mode ≠ 0 ∨ n.mode ≠ 0 then .ok true
  else if n.i1 - (m.i1 + m.chg1) > 3 then
    if !alnum then .ok true else containAlnum F (m.i1 + m.chg1) (n.i1 - (m.i1 + m.chg1))
  else .ok false

/-- `xdl_merge_two_conflicts` [deps/xdiff/xmerge.c:453-460] -/
def mergeTwo (m n : M) : M := { m with chg1 := n.i1 + n.chg1 - m.i1, chg2 := n.i2 + n.chg2 - m.i2 }

/-- the loop of `xdl_simplify_non_conflicts` [deps/xdiff/xmerge.c:474-491] -/
def simplifyFrom (F : Files) (alnum : Bool) : M → List M → Res (List M)
  | m, [] => .ok [m]
  | m, n :: ns => apart F alnum m n >>= fun a =>
    if a then simplifyFrom F alnum n ns >>= fun r => .ok (m :: r)
    else simplifyFrom F alnum (mergeTwo m n) ns

/-- `xdl_simplify_non_conflicts` [deps/xdiff/xmerge.c:467-492] -/
def simplify (F : Files) (alnum : Bool) : List M → Res (List M)
  | [] => .ok []
  | m :: ms => simplifyFrom F alnum m ms

/-- how many lines two lists begin with in common [deps/xdiff/xmerge.c:340-346] -/
def commonStart : List Bytes → List Bytes → Nat
  | a :: as, b :: bs => if a = b then commonStart as bs + 1 else 0
  | _, _ => 0

/-- common lines taken off both ends of a conflict [deps/xdiff/xmerge.c:340-352] -/
def trim (F : Files) (m : M) : Res M :=
  range F.ours m.i1 m.chg1 >>= fun a =>
  range F.theirs m.i2 m.chg2 >>= fun b =>
  let p := commonStart a b
  let s := commonStart (a.drop p).reverse (b.drop p).reverse
  .ok { m with i1 := m.i1 + p, i2 := m.i2 + p, chg1 := m.chg1 - p - s, chg2 := m.chg2 - p - s }

/-- `xdl_refine_zdiff3_conflicts` [deps/xdiff/xmerge.c:331-354] -/
def refineZ (F : Files) : List M → Res (List M)
  | [] => .ok []
  | m :: ms =>
    if m.mode ≠ 0 then refineZ F ms >>= fun r => .ok (m :: r)
    else trim F m >>= fun m' => refineZ F ms >>= fun r => .ok (m' :: r)

/-! ## The result -/

/-- what is written: lines, or a line that marks a conflict [deps/xdiff/xmerge.c:215-291] -/
inductive Chunk where
  | text (b : Bytes)
  | marker (c : UInt8) (size : Nat) (name : Option Bytes) (cr : Bool)
  deriving DecidableEq, Repr

/-- the size of it, computed when there is no buffer yet [deps/xdiff/xmerge.c:215-216, 241-242, 259-260, 273-274] -/
def Chunk.size : Chunk → Nat
  | text b => b.length
  | marker _ n name cr => n + 1 + (if cr then 1 else 0) + (match name with
    | none => 0
    | some s => s.length + 1)

/-- the bytes that are written to the buffer [deps/xdiff/xmerge.c:218-228] -/
def Chunk.bytes : Chunk → Bytes
  | text b => b
  | marker c n name cr => List.replicate n c ++ (match name with
    | none => []
    | some s => c!" " :: s) ++ (if cr then [13] else []) ++ [c!"\n"]

/-- the newline added after a last line without one [deps/xdiff/xmerge.c:125-137] -/
def addNewline (cr : Bool) (ls : List Bytes) : Bytes := match ls.getLast? with
  | none => []
  | some l => if l.getLast? = some c!"\n" then [] else (if cr then [13] else []) ++ [c!"\n"]

/-- `xdl_recs_copy_0` [deps/xdiff/xmerge.c:113-139] -/
def recsCopy (l : List Bytes) (i count : Int) (cr addNl : Bool) : Res Chunk :=
  if count < 1 then .ok (.text [])
  else range l i count >>= fun ls => .ok (.text (ls.flatten ++ (if addNl then addNewline cr ls else [])))

/-- a line that ends in CR LF, given that it ends in LF [deps/xdiff/xmerge.c:162-163] -/
def crBefore (l : Bytes) : Int := if 1 < l.length ∧ l[l.length - 2]? = some 13 then 1 else 0

/-- `is_eol_crlf` [deps/xdiff/xmerge.c:156-178] -/
def isEolCrlf (file : List Bytes) (i : Nat) : Res Int :=
  if i + 1 < file.length then .ok (crBefore (file.getD i []))
  else if file.length = 0 then .ok (-1)
  else match file[i]? with
    | none => .ub
    | some l =>
      if l.length ≠ 0 ∧ l.getLast? = some c!"\n" then .ok (crBefore l)
      else if i = 0 then .ok (-1)
      else .ok (crBefore (file.getD (i - 1) []))

/-- the line before a region, or the first [deps/xdiff/xmerge.c:185] -/
def lineBefore (i : Int) : Nat := if i ≠ 0 then (i - 1).toNat else 0

/-- `is_cr_needed` [deps/xdiff/xmerge.c:180-193] -/
def isCrNeeded (F : Files) (m : M) : Res Bool :=
  isEolCrlf F.ours (lineBefore m.i1) >>= fun a =>
  if a = 0 then .ok false
  else isEolCrlf F.theirs (lineBefore m.i2) >>= fun b =>
    if b = 0 then .ok false
    else isEolCrlf F.base 0 >>= fun c => .ok (decide (0 < c))

/-- `xmparam_t` [deps/xdiff/xdiff.h:129-139]: `favor` is 0 or 1 ours, 2 theirs, 3 union; `style` is 0 or 1 diff3, 2 zealous diff3; `alnum` is the level `XDL_MERGE_ZEALOUS_ALNUM` -/
structure Params where
  favor : Nat
  style : Nat
  alnum : Bool
  markerSize : Nat
  name1 : Option Bytes
  name2 : Option Bytes
  ancestor : Option Bytes

/-- the size of the markers [deps/xdiff/xmerge.c:207-208] -/
def Params.marks (P : Params) : Nat := if P.markerSize = 0 then 7 else P.markerSize

/-- the part with the ancestor [deps/xdiff/xmerge.c:238-256] -/
def ancestorPart (F : Files) (P : Params) (cr : Bool) (m : M) : Res (List Chunk) :=
  if P.style = 1 ∨ P.style = 2 then
    recsCopy F.base m.i0 m.chg0 cr true >>= fun b => .ok [.marker c!"|" P.marks P.ancestor cr, b]
  else .ok []

/-- `fill_conflict_hunk` [deps/xdiff/xmerge.c:195-291] -/
def conflictHunk (F : Files) (P : Params) (i : Int) (m : M) : Res (List Chunk) :=
  isCrNeeded F m >>= fun cr =>
  recsCopy F.ours i (m.i1 - i) false false >>= fun before =>
  recsCopy F.ours m.i1 m.chg1 cr true >>= fun o =>
  ancestorPart F P cr m >>= fun a =>
  recsCopy F.theirs m.i2 m.chg2 cr true >>= fun t =>
  .ok ([before, .marker c!"<" P.marks P.name1 cr, o] ++ a ++ [.marker c!"=" P.marks none cr, t, .marker c!">" P.marks P.name2 cr])

/-- the first side's lines, if they are taken [deps/xdiff/xmerge.c:310-316] -/
def takeFirst (F : Files) (mode : Nat) (m : M) : Res (List Chunk) :=
  if mode % 2 = 1 then
    isCrNeeded F m >>= fun cr =>
    recsCopy F.ours m.i1 m.chg1 cr (decide (mode / 2 % 2 = 1)) >>= fun o => .ok [o]
  else .ok []

/-- the second side's lines, if they are taken [deps/xdiff/xmerge.c:317-320] -/
def takeSecond (F : Files) (mode : Nat) (m : M) : Res (List Chunk) :=
  if mode / 2 % 2 = 1 then recsCopy F.theirs m.i2 m.chg2 false false >>= fun t => .ok [t] else .ok []

/-- a region without conflict [deps/xdiff/xmerge.c:305-320] -/
def plainHunk (F : Files) (mode : Nat) (i : Int) (m : M) : Res (List Chunk) :=
  recsCopy F.ours i (m.i1 - i) false false >>= fun before =>
  takeFirst F mode m >>= fun a =>
  takeSecond F mode m >>= fun b => .ok ([before] ++ a ++ b)

/-- the mode after `favor` [deps/xdiff/xmerge.c:302-303] -/
def favored (P : Params) (mode : Nat) : Nat := if P.favor ≠ 0 ∧ mode = 0 then P.favor else mode

/-- the loop of `xdl_fill_merge_buffer` [deps/xdiff/xmerge.c:301-326] -/
def fill (F : Files) (P : Params) : List M → Int → Res (List Chunk)
  | [], i => recsCopy F.ours i (F.ours.length - i) false false >>= fun r => .ok [r]
  | m :: ms, i =>
    if favored P m.mode = 0 then
      conflictHunk F P i m >>= fun h => fill F P ms (m.i1 + m.chg1) >>= fun r => .ok (h ++ r)
    else if favored P m.mode % 4 ≠ 0 then
      plainHunk F (favored P m.mode) i m >>= fun h => fill F P ms (m.i1 + m.chg1) >>= fun r => .ok (h ++ r)
    else fill F P ms i

/-- the two passes: a buffer of the size that the first computes (in an `int`), filled by the second; writing past its end is undefined [deps/xdiff/xmerge.c:664-680] -/
def output (cs : List Chunk) : Res Bytes :=
  if 2 ^ 31 ≤ (cs.map Chunk.size).sum then .ub
  else if (cs.map Chunk.size).sum < (cs.map Chunk.bytes).flatten.length then .ub
  else .ok ((cs.map Chunk.bytes).flatten)

/-- the regions, refined [deps/xdiff/xmerge.c:652-662] -/
def refined (diff : List Bytes → List Bytes → Res (List Change)) (F : Files) (P : Params) (ms : List M) : Res (List M) :=
  if P.style = 2 then refineZ F ms
  else if P.style = 1 then .ok ms
  else refine diff F ms >>= fun r => simplify F P.alnum r

/-- `xdl_do_merge`: the text and the number of conflicts [deps/xdiff/xmerge.c:504-683] -/
def doMerge (diff : List Bytes → List Bytes → Res (List Change)) (F : Files) (P : Params) (xs1 xs2 : List Change) : Res (Bytes × Nat) :=
  overlay F (xs1.length + xs2.length) xs1 xs2 none >>= fun ms =>
  refined diff F P ms >>= fun ms =>
  fill F P ms 0 >>= fun cs =>
  output cs >>= fun out => .ok (out, (ms.filter fun m => decide (favored P m.mode = 0)).length)

/-- `xdl_merge` [deps/xdiff/xmerge.c:685-739] -/
def xdlMerge (diff : List Bytes → List Bytes → Res (List Change)) (P : Params) (base ours theirs : Bytes) : Res (Bytes × Nat) :=
  diff (splitLines base) (splitLines ours) >>= fun xs1 =>
  diff (splitLines base) (splitLines theirs) >>= fun xs2 =>
  if xs1 = [] then .ok (theirs, 0)
  else if xs2 = [] then .ok (ours, 0)
  else doMerge diff ⟨splitLines base, splitLines ours, splitLines theirs⟩ P xs1 xs2

/-! ## `git_merge_file` -/

/-- `git_merge_file_input` [include/git2/merge.h:33-49] -/
structure Input where
  path : Option Bytes
  mode : Nat
  data : Bytes

/-- `git_merge_file_options` without the flags that ignore white space and the patience algorithm [include/git2/merge.h:195-226] -/
structure Options where
  ancestorLabel : Option Bytes
  ourLabel : Option Bytes
  theirLabel : Option Bytes
  favor : Nat
  alnum : Bool
  diff3 : Bool
  zdiff3 : Bool
  minimal : Bool
  markerSize : Nat

/-- `git_merge_file_result` [include/git2/merge.h:255-275] -/
structure Output where
  automergeable : Bool
  path : Option Bytes
  mode : Nat
  data : Option Bytes
  deriving DecidableEq, Repr

/-- `merge_file__is_binary` [src/libgit2/merge_file.c:178-188] -/
def isBinary (b : Bytes) : Bool := decide (1024 * 1024 * 1023 < b.length) || (b.take 8000).contains 0

/-- a file favored as a whole [src/libgit2/merge_file.c:205-213] -/
def favoredFile (f : Input) : Output := ⟨true, f.path, f.mode, some f.data⟩

/-- `merge_file__binary` [src/libgit2/merge_file.c:190-217] -/
def mergeBinary (o : Options) (ours theirs : Input) : Output :=
  if o.favor = 1 then favoredFile ours
  else if o.favor = 2 then favoredFile theirs
  else ⟨false, none, 0, none⟩

/-- `git_merge_file__best_path` when there is an ancestor [src/libgit2/merge.h:172-177] -/
def bestPathOf (a : Bytes) (ours theirs : Option Bytes) : Option Bytes :=
  if ours = some a then theirs else if theirs = some a then ours else none

/-- `git_merge_file__best_path` [src/libgit2/merge.h:160-178] -/
def bestPath (ancestor ours theirs : Option Bytes) : Option Bytes := match ancestor with
  | none => if ours.isSome && decide (ours = theirs) then ours else none
  | some a => bestPathOf a ours theirs

/-- `git_merge_file__best_mode` [src/libgit2/merge.h:180-202] -/
def bestMode (ancestor ours theirs : Nat) : Nat :=
  if ancestor = 0 then (if ours = 0o100755 ∨ theirs = 0o100755 then 0o100755 else 0o100644)
  else if ours ≠ 0 ∧ theirs ≠ 0 then (if ancestor = ours then theirs else ours)
  else 0

/-- a label, or else the path [src/libgit2/merge_file.c:92-110] -/
def label (l path : Option Bytes) : Option Bytes := match l with
  | some x => some x
  | none => path

/-- the style from the flags [src/libgit2/merge_file.c:122-125] -/
def styleOf (o : Options) : Nat := if o.zdiff3 then 2 else if o.diff3 then 1 else 0

/-- the parameters of the merge [src/libgit2/merge_file.c:91-141] -/
def paramsOf (o : Options) (ancestor : Option Input) (ours theirs : Input) : Params :=
  { favor := o.favor, style := styleOf o, alnum := o.alnum, markerSize := o.markerSize, name1 := label o.ourLabel ours.path, name2 := label o.theirLabel theirs.path,
    ancestor := match ancestor with
      | none => none
      | some a => label o.ancestorLabel a.path }

/-- the data, mode and path of an ancestor that may not be there [src/libgit2/merge_file.c:149-165] -/
def dataOf (a : Option Input) : Bytes := match a with
  | none => []
  | some a => a.data

/-- see `dataOf` [src/libgit2/merge_file.c:162-165] -/
def modeOf (a : Option Input) : Nat := match a with
  | none => 0
  | some a => a.mode

/-- see `dataOf` [src/libgit2/merge_file.c:149-152] -/
def pathOf (a : Option Input) : Option Bytes := match a with
  | none => none
  | some a => a.path

/-- `merge_file__xdiff` [src/libgit2/merge_file.c:66-176] -/
def mergeText (diff : Bool → List Bytes → List Bytes → Res (List Change)) (o : Options) (ancestor : Option Input) (ours theirs : Input) : Res Output :=
  xdlMerge (diff o.minimal) (paramsOf o ancestor ours theirs) (dataOf ancestor) ours.data theirs.data >>= fun r =>
  .ok ⟨decide (r.2 = 0), bestPath (pathOf ancestor) ours.path theirs.path, bestMode (modeOf ancestor) ours.mode theirs.mode, some r.1⟩

/-- `merge_file__from_inputs` [src/libgit2/merge_file.c:219-232] -/
def fromInputs (diff : Bool → List Bytes → List Bytes → Res (List Change)) (o : Options) (ancestor : Option Input) (ours theirs : Input) : Res Output :=
  if isBinary (dataOf ancestor) || isBinary ours.data || isBinary theirs.data then .ok (mergeBinary o ours theirs)
  else mergeText diff o ancestor ours theirs

/-- `git_merge_file__normalize_inputs` [src/libgit2/merge_file.c:234-247] -/
def normalize (i : Input) : Input :=
  { i with path := label i.path (some b!"file.txt"), mode := if i.mode = 0 then 0o100644 else i.mode }

/-- `git_merge_file` for a search for differences [src/libgit2/merge_file.c:249-270] -/
def mergeFileWith (diff : Bool → List Bytes → List Bytes → Res (List Change)) (o : Options) (ancestor : Option Input) (ours theirs : Input) : Res Output :=
  fromInputs diff o (ancestor.map normalize) (normalize ours) (normalize theirs)

/-- `git_merge_file` [src/libgit2/merge_file.c:249-270]. `XDF_INDENT_HEURISTIC` is never set. -/
def mergeFile (o : Options) (ancestor : Option Input) (ours theirs : Input) : Res Output :=
  mergeFileWith (fun minimal => Xdiff.script minimal false) o ancestor ours theirs

end Verif.MergeFile
