import Verif.RefName.Props
import Verif.Wildmatch.Props
/-! # Refspecs: src/libgit2/refspec.c -/
namespace Verif.Refspec

open RefName (nameIsValid)

/-- `wildmatch(pattern, text, 0) == 0` [src/libgit2/refspec.c:244-260] -/
def glob (pattern text : Bytes) : Bool := Wildmatch.wildmatch ⟨false, false⟩ pattern text = .ok

/-- `struct git_refspec`: src/libgit2/refspec.h:16-24; `dst` may be NULL -/
structure Spec where
  string : Bytes
  src : Bytes
  dst : Option Bytes
  force : Bool
  push : Bool
  pattern : Bool
  matching : Bool
  deriving DecidableEq, Repr

/-- `strrchr(lhs, ':')`: what is before and what is behind the last colon [src/libgit2/refspec.c:42] -/
def splitColon (lhs : Bytes) : Bytes × Option Bytes :=
  if c!":" ∈ lhs then
    ((lhs.reverse.dropWhile (· != c!":")).tail.reverse, some (lhs.reverse.takeWhile (· != c!":")).reverse)
  else (lhs, none)

/-- the flags of refspec.c:83-85 -/
def nameFlags (isGlob : Bool) : RefName.Flags := ⟨true, isGlob, true, false⟩

/-- `git_reference__name_is_valid(&valid, name, flags) < 0` → -1, `!valid` → GIT_EINVALIDSPEC; as at refspec.c:95-98 -/
def checkName (name : Bytes) (isGlob : Bool) : Res Unit :=
  match nameIsValid name (nameFlags isGlob) with
  | .ok true => .ok ()
  | .ok false => .err RefName.EINVALIDSPEC
  | .err _ => .err (-1)
  | .ub => .ub

/-- the checks of the names of a fetch refspec: src/libgit2/refspec.c:88-112 -/
def checkFetch (src : Bytes) (dst : Option Bytes) (isGlob : Bool) : Res Unit :=
  (if src = [] then .ok () else checkName src isGlob) >>= fun _ =>
    match dst with
    | none => .ok ()
    | some d => if d = [] then .ok () else checkName d isGlob

/-- the checks of the names of a push refspec: src/libgit2/refspec.c:113-153 -/
def checkPush (src : Bytes) (dst : Option Bytes) (isGlob : Bool) : Res Unit :=
  (if src = [] then .ok () else if isGlob then checkName src isGlob else .ok ()) >>= fun _ =>
    match dst with
    | none => checkName src isGlob
    | some d => if d = [] then .err RefName.EINVALIDSPEC else checkName d isGlob

/-- the glob rules: src/libgit2/refspec.c:59-80; `none` is the jump to `invalid`, otherwise the result is `is_glob` -/
def globRule (src : Bytes) (rhs : Option Bytes) (isNeg isFetch : Bool) : Option Bool :=
  let isGlob := match rhs with | some r => r.contains c!"*" | none => false
  if src.contains c!"*" then
    if (rhs.isSome && !isGlob) || (rhs.isSome && isNeg) || (!rhs.isSome && isFetch && !isNeg) then none else some true
  else if rhs.isSome && isGlob then none
  else some isGlob

/-- `refspec->dst`: src/libgit2/refspec.c:59-65 -/
def dstOf (rhs : Option Bytes) (isFetch : Bool) : Option Bytes :=
  match rhs with
  | some r => if r ≠ [] || !isFetch then some r else none
  | none => none

/-- `git_refspec__parse` after the special case of ":" and the search for the colon: src/libgit2/refspec.c:59-168 -/
def parseSides (input : Bytes) (force isNeg : Bool) (src : Bytes) (rhs : Option Bytes) (isFetch : Bool) : Res Spec :=
  match globRule src rhs isNeg isFetch with
  | none => .err RefName.EINVALIDSPEC
  | some isGlob =>
    if isFetch then
      checkFetch src (dstOf rhs isFetch) isGlob >>= fun _ => .ok ⟨input, src, dstOf rhs isFetch, force, false, isGlob, false⟩
    else
      checkPush src (dstOf rhs isFetch) isGlob >>= fun _ => .ok ⟨input, src, some ((dstOf rhs isFetch).getD src), force, true, isGlob, false⟩

/-- `git_refspec__parse`, behind the plus sign: src/libgit2/refspec.c:37-168 -/
def parseLhs (input : Bytes) (force : Bool) (lhs : Bytes) (isFetch : Bool) : Res Spec :=
  if !isFetch && lhs = b!":" then .ok ⟨input, [], some [], force, true, false, true⟩
  else parseSides input force (lhs.head? = some c!"^") (splitColon lhs).1 (splitColon lhs).2 isFetch

/-- `git_refspec__parse`: src/libgit2/refspec.c:16-177. Allocation does not fail. -/
def parse (input : Bytes) (isFetch : Bool) : Res Spec :=
  if input.head? = some c!"+" then parseLhs input true input.tail isFetch else parseLhs input false input isFetch

/-- `git_refspec_src_matches`: src/libgit2/refspec.c:247-253. -/
def srcMatches (s : Spec) (name : Bytes) : Bool := glob s.src name

/-- `git_refspec_dst_matches`: src/libgit2/refspec.c:255-261. -/
def dstMatches (s : Spec) (name : Bytes) : Bool :=
  match s.dst with
  | none => false
  | some d => glob d name

/-- `git_refspec_is_negative`: src/libgit2/refspec.c:362-368. -/
def isNegative (s : Spec) : Bool := s.src.head? = some c!"^" && s.dst = none

/-- `git_refspec_src_matches_negative`: src/libgit2/refspec.c:239-245. -/
def srcMatchesNegative (s : Spec) (name : Bytes) : Bool := isNegative s && glob s.src.tail name

/-- what `strchr(s, '*')` splits: before and behind the first asterisk [src/libgit2/refspec.c:277-278] -/
def splitStar (s : Bytes) : Option (Bytes × Bytes) :=
  if c!"*" ∈ s then some (s.takeWhile (· != c!"*"), (s.dropWhile (· != c!"*")).tail) else none

/-- `refspec_transform`: src/libgit2/refspec.c:263-296. A failing GIT_ASSERT returns -1. `name` shorter than the parts around the
asterisk makes `replacement_len` wrap around. -/
def transformPattern (frm to name : Bytes) : Res Bytes :=
  match splitStar frm, splitStar to with
  | some (f1, f2), some (t1, t2) =>
    if name.length < f1.length then .ub
    else
      let rest := name.drop f1.length
      if rest.length < f2.length then .ub
      else .ok (t1 ++ rest.take (rest.length - f2.length) ++ t2)
  | _, _ => .err (-1)

/-- `git_refspec__transform`: src/libgit2/refspec.c:303-318; `strchr(NULL, '*')` is undefined. -/
def transform (s : Spec) (name : Bytes) : Res Bytes :=
  if !srcMatches s name then .err (-1)
  else if !s.pattern then .ok (s.dst.getD [])
  else
    match s.dst with
    | none => .ub
    | some d => transformPattern s.src d name

/-- `git_refspec__rtransform`: src/libgit2/refspec.c:325-340. -/
def rtransform (s : Spec) (name : Bytes) : Res Bytes :=
  if !dstMatches s name then .err (-1)
  else if !s.pattern then .ok s.src
  else
    match s.dst with
    | none => .ub
    | some d => transformPattern d s.src name

/-- `git_refspec__serialize`: src/libgit2/refspec.c:342-352. -/
def serialize (s : Spec) : Bytes := (if s.force then [c!"+"] else []) ++ s.src ++ c!":" :: s.dst.getD []

end Verif.Refspec
