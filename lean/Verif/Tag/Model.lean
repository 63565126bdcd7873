import Verif.Commit.Model
import Verif.RefName.Model
/-! # Annotated tags (src/libgit2/tag.c) -/
namespace Verif.Tag
open Verif.Sig Verif.Commit

/-- `git_tag`: src/libgit2/tag.h:16-25, strings as their users see them -/
structure Tag where
  target : Bytes
  type : Nat
  name : Bytes
  tagger : Option Signature
  message : Option Bytes
  deriving DecidableEq, Repr

/-- `git_object_type2string` for the types of objects: src/libgit2/object.c -/
def typeName : Nat → Bytes
  | 1 => b!"commit"
  | 2 => b!"tree"
  | 3 => b!"blob"
  | 4 => b!"tag"
  | _ => []

/-- the loop over the types in `tag_parse`: src/libgit2/tag.c:95-106, from type `i` on; the type (0 for none) and the buffer behind it -/
def parseType (buf : Bytes) : Nat → List Bytes → Res (Nat × Bytes)
  | _, [] => .ok (0, buf)
  | i, t :: ts =>
    if buf.length ≤ t.length then .err EINVALID
    else if buf.take t.length = t then .ok (i, buf.drop t.length)
    else parseType buf (i + 1) ts

/-- the tagger in `tag_parse`: src/libgit2/tag.c:134-142 -/
def parseTagger (buf : Bytes) : Res (Option Signature × Bytes) :=
  match buf with
  | [] => .ok (none, [])
  | c :: _ =>
    if c ≠ c!"\n" then parse buf b!"tagger " c!"\n" >>= fun r => .ok (some r.1, r.2)
    else .ok (none, buf)

/-- the message in `tag_parse`: src/libgit2/tag.c:144-164 -/
def parseMessage (buf : Bytes) : Res (Option Bytes) :=
  match buf with
  | [] => .ok none
  | c :: more =>
    if c ≠ c!"\n" then
      match splitHeader buf with
      | some r => .ok (some (cstr (r.2.drop 1)))
      | none => .err EINVALID
    else .ok (some (cstr more))

/-- the part of `tag_parse` from the name on: src/libgit2/tag.c:111-166 -/
def parseName (target : Bytes) (type : Nat) (buf : Bytes) : Res Tag :=
  if buf.length ≤ 4 then .err EINVALID
  else if buf.take 4 ≠ b!"tag " then .err EINVALID
  else
    let buf := buf.drop 4
    if ¬ buf.contains c!"\n" then .err EINVALID
    else
      parseTagger ((buf.dropWhile (· ≠ c!"\n")).drop 1) >>= fun t =>
      parseMessage t.2 >>= fun m =>
      .ok ⟨target, type, cstr (buf.takeWhile (· ≠ c!"\n")), t.1, m⟩

/-- the part of `tag_parse` from the type on: src/libgit2/tag.c:86-109 -/
def parseTypeLine (target : Bytes) (buf : Bytes) : Res Tag :=
  if buf.length ≤ 5 then .err EINVALID
  else if buf.take 5 ≠ b!"type " then .err EINVALID
  else
    parseType (buf.drop 5) 1 [b!"commit\n", b!"tree\n", b!"blob\n", b!"tag\n"] >>= fun t =>
    if t.1 = 0 then .err EINVALID else parseName target t.1 t.2

/-- `tag_parse`: src/libgit2/tag.c:68-166 -/
def tagParse (size : Nat) (data : Bytes) : Res Tag :=
  match parseOidHeader size b!"object " data with
  | .ok r => parseTypeLine r.1 r.2
  | .err _ => .err EINVALID
  | .ub => .ub

/-- the buffer of `write_tag_annotation`: src/libgit2/tag.c:224-234 -/
def annotation (size : Nat) (name target : Bytes) (type : Nat) (tagger : Signature) (message : Bytes) : Res Bytes :=
  writeOidHeader size b!"object " target >>= fun o =>
  .ok (o ++ b!"type " ++ typeName type ++ b!"\n" ++ b!"tag " ++ name ++ b!"\n" ++ writebuf b!"tagger " tagger ++ b!"\n" ++ message)

/-- `GIT_EEXISTS`: include/git2/errors.h -/
def EEXISTS : Int := -4

/-- what the repository answers: the outcome of resolving a (normalised) reference name, whether the object database takes objects, and the
outcome of creating the reference [src/libgit2/tag.c:270-326] -/
structure World where
  lookup : Bytes → Int
  writes : Bool
  creates : Int

/-- what was done: return value, object written, name of the reference that was created (or overwritten) [src/libgit2/tag.c:270-326] -/
structure Created where
  ret : Int
  object : Option Bytes
  ref : Option Bytes
  deriving DecidableEq, Repr

/-- the end of `git_tag_create__internal` for an annotated tag: src/libgit2/tag.c:300-310 -/
def createAnnotated (size : Nat) (w : World) (ref name target : Bytes) (type : Nat) (tagger : Signature) (message : Bytes) : Created :=
  match annotation size name target type tagger message with
  | .ok data =>
    if w.writes then ⟨w.creates, some data, if w.creates = 0 then some ref else none⟩ else ⟨-1, none, none⟩
  | _ => ⟨-1, none, none⟩

/-- `git_tag_create`: src/libgit2/tag.c:262-339. `git_reference_name_to_id` validates and normalises the name first: src/libgit2/refs.c:187-252. -/
def create (size : Nat) (w : World) (name target : Bytes) (type : Nat) (tagger : Signature) (message : Bytes) (force : Bool) : Created :=
  if name.head? = some c!"-" then ⟨-1, none, none⟩
  else
    match RefName.normalizeName 1024 (RefName.joinpath b!"refs/tags/" name) ⟨true, false, false, false⟩ with
    | .ok ref =>
      if w.lookup ref < 0 ∧ w.lookup ref ≠ ENOTFOUND then ⟨w.lookup ref, none, none⟩
      else if w.lookup ref = 0 ∧ ¬ force then ⟨EEXISTS, none, none⟩
      else createAnnotated size w ref name target type tagger message
    | .err e => ⟨e, none, none⟩
    | .ub => ⟨-1, none, none⟩

end Verif.Tag
