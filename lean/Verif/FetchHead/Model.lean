import Verif.FetchHead.Spec
import Verif.Cmp
import Verif.Oid.Model
import Verif.Sort.Model
/-! # Model of `src/libgit2/fetchhead.c`

The file is its contents; that it is replaced atomically (`git_filebuf`) is C17. Allocation failure is not modelled. The removal of credentials from
the url (`sanitized_remote_url`, :40-65) is not modelled: the url is the one in the `git_fetchhead_ref`. -/
namespace Verif.FetchHead
open Spec (Ref)

/-! ## Writing -/

/-- `git_fetchhead_ref_cmp`: src/libgit2/fetchhead.c:20-38 -/
def refCmp (one two : Ref) : Int :=
  if one.isMerge && !two.isMerge then -1
  else if two.isMerge && !one.isMerge then 1
  else
    match one.name, two.name with
    | some a, some b => bcmp a b
    | some _, none => -1
    | none, some _ => 1
    | none, none => 0

/-- `GIT_REFS_HEADS_DIR` [src/libgit2/refs.h:21] -/
def headsDir : Bytes := b!"refs/heads/"
/-- `GIT_REFS_TAGS_DIR` [src/libgit2/refs.h:22] -/
def tagsDir : Bytes := b!"refs/tags/"

/-- the line of a reference that is not `HEAD`: src/libgit2/fetchhead.c:134-139 -/
def lineFor (oid : Bytes) (isMerge : Bool) (type name url : Bytes) : Bytes :=
  oid ++ b!"\t" ++ (if isMerge then [] else b!"not-for-merge") ++ b!"\t" ++ type ++ b!"'" ++ name ++ b!"' of " ++ url ++ b!"\n"

/-- the description: src/libgit2/fetchhead.c:117-139. `oid` is the text of the id. -/
def describe (oid : Bytes) (isMerge : Bool) (name url : Bytes) : Bytes :=
  if headsDir.isPrefixOf name then lineFor oid isMerge b!"branch " (name.drop headsDir.length) url
  else if tagsDir.isPrefixOf name then lineFor oid isMerge b!"tag " (name.drop tagsDir.length) url
  else if name = b!"HEAD" then oid ++ b!"\t\t" ++ url ++ b!"\n"
  else lineFor oid isMerge [] name url

/-- `fetchhead_ref_write`: src/libgit2/fetchhead.c:104-140. A NULL name or url is dereferenced. -/
def writeRef (size : Nat) (r : Ref) : Res Bytes :=
  Oid.tostr size 65 (some r.oid) >>= fun oid =>
  match r.name, r.url with
  | some name, some url => .ok (describe (oid.takeWhile (· ≠ 0)) r.isMerge name url)
  | _, _ => .ub

/-- the loop over the references: src/libgit2/fetchhead.c:164-165 -/
def writeRefs (size : Nat) : List Ref → Res Bytes
  | [] => .ok []
  | r :: rs => writeRef size r >>= fun a => writeRefs size rs >>= fun b => .ok (a ++ b)

/-- `git_fetchhead_write`: src/libgit2/fetchhead.c:142-168; `old` is what the file holds (nothing, if there is none), the result what it holds afterwards -/
def write (size : Nat) (old : Bytes) (refs : List Ref) : Res Bytes :=
  Sort.tsort refCmp refs >>= fun refs => writeRefs size refs >>= fun new => .ok (old ++ new)

/-! ## Reading -/

/-- `git__strsep` with one separator: src/util/util.c:307-322. The token and what follows it; the string has no NUL. -/
def strsep (s : Bytes) (sep : UInt8) : Option (Bytes × Bytes) :=
  match s.dropWhile (· ≠ sep) with
  | [] => none
  | _ :: r => some (s.takeWhile (· ≠ sep), r)

/-- `strstr(s, "' ")`: what precedes, and the rest from there on [src/libgit2/fetchhead.c:244] -/
def strstrQuote : Bytes → Option (Bytes × Bytes)
  | [] => none
  | c :: s => if b!"' ".isPrefixOf (c :: s) then some ([], c :: s) else (strstrQuote s).map fun p => (c :: p.1, p.2)

/-- the id of a line: src/libgit2/fetchhead.c:197-210 -/
def parseOid (size : Nat) (s : Bytes) : Res Bytes :=
  if s.length ≠ 2 * size then .err (-1)
  else
    match Oid.fromString size (s ++ [0]) with
    | .ok id => .ok id
    | .err _ => .err (-1)
    | .ub => .ub

/-- the type and the rest of the description, if it begins with a name: src/libgit2/fetchhead.c:234-241 -/
def splitDesc (desc : Bytes) : Option (Bytes × Bytes) :=
  if b!"branch '".isPrefixOf desc then some (headsDir, desc.drop 8)
  else if b!"tag '".isPrefixOf desc then some (tagsDir, desc.drop 5)
  else if b!"'".isPrefixOf desc then some ([], desc.drop 1)
  else none

/-- `git_str_join(ref_name, '/', type, name)` or `git_str_puts`: src/libgit2/fetchhead.c:262-265, src/util/str.c:760-807. Both types end in a
slash, so that none is inserted; those at the beginning of the name are dropped. -/
def joinName (type name : Bytes) : Bytes := if type = [] then name else type ++ name.dropWhile (· = c!"/")

/-- an empty name is NULL: src/libgit2/fetchhead.c:304-307 -/
def orNull (s : Bytes) : Option Bytes := if s.length > 0 then some s else none

/-- the description: src/libgit2/fetchhead.c:228-265, 304-307 -/
def parseDesc (oid : Bytes) (isMerge : Bool) (desc : Bytes) : Res Ref :=
  match splitDesc desc with
  | none => .ok ⟨oid, isMerge, none, some desc⟩
  | some (type, name) =>
    match strstrQuote name with
    | none => .err (-1)
    | some (name, rest) =>
      if b!"' of ".isPrefixOf rest then .ok ⟨oid, isMerge, orNull (joinName type name), some (rest.drop 5)⟩
      else .err (-1)

/-- what follows the id: src/libgit2/fetchhead.c:212-257 -/
def parseRest (oid rest : Bytes) : Res Ref :=
  match strsep rest c!"\t" with
  | none => .err (-1)
  | some (m, desc) =>
    if m = [] then parseDesc oid true desc
    else if m = b!"not-for-merge" then parseDesc oid false desc
    else .err (-1)

/-- `fetchhead_ref_parse`: src/libgit2/fetchhead.c:170-270. `isMerge` is what `*is_merge` holds before: nothing is assigned to it if the line
ends after the tab that follows the id. -/
def parse (size : Nat) (line : Bytes) (isMerge : Bool) : Res Ref :=
  if line = [] then .err (-1)
  else
    match strsep line c!"\t" with
    | none => parseOid size line >>= fun oid => .ok ⟨oid, true, none, none⟩
    | some (oidStr, rest) =>
      parseOid size oidStr >>= fun oid => if rest = [] then .ok ⟨oid, isMerge, none, none⟩ else parseRest oid rest

/-- the loop of `git_repository_fetchhead_foreach`: src/libgit2/fetchhead.c:297-321. What the callback got, and the code returned; running out of fuel is `ub`. -/
def foreachLoop (size : Nat) (cb : Ref → Int) : Nat → Bytes → Bool → Res (List Ref × Int)
  | 0, _, _ => .ub
  | fuel + 1, buf, isMerge =>
    match strsep buf c!"\n" with
    | none => if buf = [] then .ok ([], 0) else .ok ([], -1)
    | some (line, buf) =>
      match parse size line isMerge with
      | .ub => .ub
      | .err e => .ok ([], e)
      | .ok r =>
        if cb r ≠ 0 then .ok ([r], cb r)
        else
          match foreachLoop size cb fuel buf r.isMerge with
          | .ok (rs, c) => .ok (r :: rs, c)
          | .err e => .err e
          | .ub => .ub

/-- `git_repository_fetchhead_foreach`: src/libgit2/fetchhead.c:272-329, on the contents of the file; it is taken for a string, that ends at the first NUL -/
def foreach (size : Nat) (file : Bytes) (cb : Ref → Int) : Res (List Ref × Int) :=
  foreachLoop size cb (file.length + 1) (file.takeWhile (· ≠ 0)) false

end Verif.FetchHead
