import Verif.Oid.Model
import Verif.Sig.Model
/-! # Commits (src/libgit2/commit.c)

A buffer is the list of its bytes; `size` is the number of bytes of an object id. Loops get the number of bytes at hand as a bound for
their iterations; one that does not end within it is `ub`, so that a theorem that excludes `ub` also shows that the loop ends. -/
namespace Verif.Commit
open Verif.Sig

/-- `git_object__parse_oid_header`: src/libgit2/object.c:644-671: the id, and the buffer behind the line -/
def parseOidHeader (size : Nat) (header buf : Bytes) : Res (Bytes × Bytes) :=
  if buf.length < header.length + 2 * size + 1 then .err (-1)
  else if buf.take header.length ≠ header then .err (-1)
  else if buf[header.length + 2 * size]? ≠ some c!"\n" then .err (-1)
  else Oid.fromPrefix size (buf.drop header.length) (2 * size) >>= fun id => .ok (id, buf.drop (header.length + 2 * size + 1))

/-- `git_object__write_oid_header`: src/libgit2/object.c:673-692 -/
def writeOidHeader (size : Nat) (header id : Bytes) : Res Bytes :=
  if size = 0 then .err (-1)
  else Oid.fmt size id >>= fun hex => .ok (header ++ hex ++ b!"\n")

/-- the loop over the parents in `git_commit__create_buffer_internal`: src/libgit2/commit.c:62-66 -/
def writeParents (size : Nat) : List Bytes → Res Bytes
  | [] => .ok []
  | p :: ps => writeOidHeader size b!"parent " p >>= fun l => writeParents size ps >>= fun r => .ok (l ++ r)

/-- `git_commit__create_buffer_internal`: src/libgit2/commit.c:45-85; `message` and `encoding` are C strings -/
def createBuffer (size : Nat) (author committer : Signature) (encoding : Option Bytes) (message tree : Bytes) (parents : List Bytes) : Res Bytes :=
  writeOidHeader size b!"tree " tree >>= fun t =>
  writeParents size parents >>= fun p =>
  .ok (t ++ p ++ writebuf b!"author " author ++ writebuf b!"committer " committer ++
    (match encoding with | some e => b!"encoding " ++ e ++ b!"\n" | none => []) ++ b!"\n" ++ message)

/-- `git_commit`: src/libgit2/commit.h:19-34; `tree` and `author` are not set by a quick parse, nor the last three -/
structure Commit where
  tree : Option Bytes
  parents : List Bytes
  author : Option Signature
  committer : Signature
  encoding : Option Bytes
  rawHeader : Option Bytes
  rawMessage : Option Bytes
  deriving DecidableEq, Repr

/-- the loop over the parents in `commit_parse`: src/libgit2/commit.c:431-438 -/
def parseParents (size : Nat) : Nat → Bytes → Res (List Bytes × Bytes)
  | 0, _ => .ub
  | n + 1, buf =>
    match parseOidHeader size b!"parent " buf with
    | .ok r => parseParents size n r.2 >>= fun q => .ok (r.1 :: q.1, q.2)
    | .err _ => .ok ([], buf)
    | .ub => .ub

/-- the loop over further authors in `commit_parse`: src/libgit2/commit.c:448-455 -/
def skipAuthors : Nat → Bytes → Res Bytes
  | 0, _ => .ub
  | n + 1, buf =>
    if (b!"author ").isPrefixOf buf then parse buf b!"author " c!"\n" >>= fun r => skipAuthors n r.2
    else .ok buf

/-- the loop over further headers in `commit_parse`: src/libgit2/commit.c:467-486. `prev` is `buffer[-1]`, `enc` the encoding so far;
gives the encoding, and the buffer from the blank line (or its end) on. -/
def parseHeaders : Nat → UInt8 → Bytes → Option Bytes → Res (Option Bytes × Bytes)
  | 0, _, _, _ => .ub
  | n + 1, prev, buf, enc =>
    match buf with
    | [] => .ok (enc, [])
    | c :: _ =>
      if prev = c!"\n" ∧ c = c!"\n" then .ok (enc, buf)
      else
        let line := buf.takeWhile (· ≠ c!"\n")
        let rest := (buf.dropWhile (· ≠ c!"\n")).drop 1
        let prev' := if buf.contains c!"\n" then c!"\n" else line.getLastD 0
        parseHeaders n prev' rest (if (b!"encoding ").isPrefixOf buf then some (cstr (line.drop 9)) else enc)

/-- the first line of `commit_parse`: src/libgit2/commit.c:415-429 -/
def parseTree (size : Nat) (data : Bytes) (quick : Bool) : Res (Option Bytes × Bytes) :=
  if quick then
    if data.length < 5 + 2 * size + 1 then .err EINVALID else .ok (none, data.drop (5 + 2 * size + 1))
  else
    match parseOidHeader size b!"tree " data with
    | .ok r => .ok (some r.1, r.2)
    | .err _ => .err EINVALID
    | .ub => .ub

/-- the first author in `commit_parse`: src/libgit2/commit.c:440-446 -/
def parseAuthor (buf : Bytes) (quick : Bool) : Res (Option Signature × Bytes) :=
  if quick then .ok (none, buf) else parse buf b!"author " c!"\n" >>= fun r => .ok (some r.1, r.2)

/-- `commit_parse`: src/libgit2/commit.c:394-507 -/
def commitParse (size : Nat) (data : Bytes) (quick : Bool) : Res Commit :=
  parseTree size data quick >>= fun t =>
  parseParents size (data.length + 1) t.2 >>= fun p =>
  parseAuthor p.2 quick >>= fun a =>
  skipAuthors (data.length + 1) a.2 >>= fun b =>
  parse b b!"committer " c!"\n" >>= fun c =>
  if quick then .ok ⟨none, p.1, none, c.1, none, none, none⟩
  else
    parseHeaders (data.length + 1) c!"\n" c.2 none >>= fun h =>
    let headerLen := data.length - h.2.length
    .ok ⟨t.1, p.1, a.1, c.1, h.1, some (cstr (data.take headerLen)), some (if headerLen + 1 ≤ data.length then cstr (data.drop (headerLen + 1)) else [])⟩

/-! ### the message -/

/-- `git__isspace`: src/util/ctype_compat.h:43-46 -/
def isspace (c : UInt8) : Bool := c = 32 ∨ (9 ≤ c ∧ c ≤ 13)

/-- `git__isspace_nonlf`: src/util/util.h:243-246 -/
def isspaceNonlf (c : UInt8) : Bool := c = 32 ∨ c = 9 ∨ c = 12 ∨ c = 13 ∨ c = 11

/-- `git_commit_message`: src/libgit2/commit.c:586-599 -/
def message (raw : Bytes) : Bytes := raw.dropWhile (· = c!"\n")

/-- the test for the end of the first paragraph in `git_commit_summary`; `more` is `msg + 1`: src/libgit2/commit.c:611-624 -/
def paragraphEnd (more : Bytes) : Bool :=
  match more with
  | [] => true
  | c :: _ =>
    c = c!"\n" || (match more.dropWhile isspaceNonlf with | [] => true | d :: _ => d = c!"\n")

/-- the loop of `git_commit_summary`: src/libgit2/commit.c:610-647. `space` is the white space since `space`, if that is set. -/
def summaryLoop : Bytes → Option Bytes → Bytes → Bytes
  | [], _, out => out
  | c :: more, space, out =>
    if c = c!"\n" ∧ paragraphEnd more then out
    else if isspace c then summaryLoop more (some (space.getD [] ++ [c])) out
    else
      match space with
      | some sp => summaryLoop more none (out ++ (if c!"\n" ∈ sp then b!" " else sp) ++ [c])
      | none => summaryLoop more none (out ++ [c])

/-- `git_commit_summary`: src/libgit2/commit.c:601-655 -/
def summary (raw : Bytes) : Bytes := summaryLoop (message raw) none []

/-- the end of the summary as `git_commit_body` sees it: src/libgit2/commit.c:661-664 -/
def skipSummary : Bytes → Bytes
  | [] => []
  | c :: more => if c = c!"\n" ∧ (more = [] ∨ more.head? = some c!"\n") then c :: more else skipSummary more

/-- `git_commit_body`: src/libgit2/commit.c:657-682 -/
def body (raw : Bytes) : Option Bytes :=
  let msg := (skipSummary (message raw)).dropWhile isspace
  if msg = [] then none else some (msg.reverse.dropWhile isspace).reverse

/-! ### header fields and signatures -/

/-- `GIT_ENOTFOUND`, `GIT_EMODIFIED`: include/git2/errors.h -/
def ENOTFOUND : Int := -3
/-- [include/git2/errors.h:51] -/
def EMODIFIED : Int := -15

/-- the continuation lines of a header: src/libgit2/commit.c:794-802 and 881-890. `rest` is from `eol + 1` on; gives the value and the
text behind the header. -/
def continuation : Nat → Bytes → Bytes → Res (Bytes × Bytes)
  | 0, _, _ => .ub
  | n + 1, rest, out =>
    match rest with
    | c :: more =>
      if c = c!" " then
        if more.contains c!"\n" then
          continuation n ((more.dropWhile (· ≠ c!"\n")).drop 1) (out ++ b!"\n" ++ more.takeWhile (· ≠ c!"\n"))
        else .err (-1)
      else .ok (out, rest)
    | [] => .ok (out, [])

/-- `git_commit__header_field`: src/libgit2/commit.c:755-816; `buf` is the raw header, a C string -/
def headerField (field : Bytes) : Nat → Bytes → Res Bytes
  | 0, _ => .ub
  | n + 1, buf =>
    if ¬ buf.contains c!"\n" then .err ENOTFOUND
    else
      let next := (buf.dropWhile (· ≠ c!"\n")).drop 1
      if buf.head? = some c!" " then headerField field n next
      else if ¬ field.isPrefixOf buf then headerField field n next
      else
        let buf := buf.drop field.length
        if buf.head? ≠ some c!" " then headerField field n next
        else continuation (next.length + 1) next ((buf.drop 1).takeWhile (· ≠ c!"\n")) >>= fun r => .ok r.1

/-- the loop of `git_commit__extract_signature`: src/libgit2/commit.c:874-915; gives the signature and the signed data -/
def extract (field : Bytes) : Nat → Bytes → Bytes → Res (Bytes × Bytes)
  | 0, _, _ => .ub
  | n + 1, buf, signed =>
    let next := (buf.dropWhile (· ≠ c!"\n")).drop 1
    if ¬ buf.contains c!"\n" ∨ next = [] then .err ENOTFOUND
    else if ¬ field.isPrefixOf buf then extract field n next (signed ++ buf.takeWhile (· ≠ c!"\n") ++ b!"\n")
    else
      let h := buf.drop field.length
      if h.head? ≠ some c!" " then extract field n h signed
      else if ¬ h.contains c!"\n" then .err (-1)
      else
        let after := (h.dropWhile (· ≠ c!"\n")).drop 1
        continuation (after.length + 1) after ((h.drop 1).takeWhile (· ≠ c!"\n")) >>= fun r => .ok (r.1, signed ++ r.2)

/-- `git_commit__extract_signature`: src/libgit2/commit.c:841-937, for a commit of the database; its data are followed by a NUL. -/
def extractSignature (data field : Bytes) : Res (Bytes × Bytes) :=
  extract field ((cstr data).length + 1) (cstr data) []

/-- the loop of `format_header_field`: src/libgit2/commit.c:1002-1006 -/
def formatLines : Bytes → Bytes
  | [] => []
  | c :: more => if c = c!"\n" then c!"\n" :: c!" " :: formatLines more else c :: formatLines more

/-- `format_header_field`: src/libgit2/commit.c:991-1012 -/
def formatHeaderField (field content : Bytes) : Bytes := field ++ b!" " ++ formatLines content ++ b!"\n"

/-- `strstr(commit_content, "\n\n")` and the text before and from the second LF on: src/libgit2/commit.c:1051-1061 -/
def splitHeader : Bytes → Option (Bytes × Bytes)
  | [] => none
  | c :: more =>
    if c = c!"\n" ∧ more.head? = some c!"\n" then some ([c], more)
    else (splitHeader more).map fun r => (c :: r.1, r.2)

/-- the object written by `git_commit_create_with_signature`: src/libgit2/commit.c:1022-1087; that tree and parents exist is not
checked here; `content`, `signature` and `field` are C strings -/
def withSignature (size : Nat) (content : Bytes) (signature : Option Bytes) (field : Bytes) : Res Bytes :=
  match commitParse size content false with
  | .ok _ =>
    match splitHeader content with
    | none => .err (-1)
    | some r => .ok (r.1 ++ (match signature with | some s => formatHeaderField field s | none => []) ++ r.2)
  | .err _ => .err (-1)
  | .ub => .ub

/-! ### creating a commit -/

/-- What the world answers to `git_commit__create_internal`. `tip` is the result of resolving `update_ref` (`ok none` when it does not exist),
`valid` tells the trees and commits of the repository, the others are whether these steps succeed. [src/libgit2/commit.c:126-186] -/
structure World where
  tip : Res (Option Bytes)
  validTree : Bytes → Bool
  validCommit : Bytes → Bool
  odbOpens : Bool
  freshens : Bool
  writes : Bool
  /-- outcome of `git_reference__update_for_commit` -/
  updates : Int

/-- what `git_commit__create_internal` did: its return value, the buffer it wrote as a commit, and whether the reference was updated to it [src/libgit2/commit.c:126-186] -/
structure Created where
  ret : Int
  object : Option Bytes
  refUpdated : Bool
  deriving DecidableEq, Repr

/-- `validate_tree_and_parents`: src/libgit2/commit.c:87-124 -/
def validateTreeAndParents (w : World) (tree : Bytes) (parents : List Bytes) (current : Option Bytes) (validate : Bool) : Int :=
  if validate ∧ ¬ w.validTree tree then -1
  else if validate ∧ ¬ parents.all w.validCommit then -1
  else match current with
    | some c => if parents.head? = some c then 0 else EMODIFIED
    | none => 0

/-- the part of `git_commit__create_internal` after the validation: src/libgit2/commit.c:155-184. `error` is zero on entry and is not set by the
three failing steps. -/
def writeCommit (size : Nat) (w : World) (updateRef : Bool) (author committer : Signature) (encoding : Option Bytes) (message tree : Bytes)
    (parents : List Bytes) : Created :=
  match createBuffer size author committer encoding message tree parents with
  | .ok buf =>
    if ¬ w.odbOpens then ⟨0, none, false⟩
    else if ¬ w.freshens then ⟨0, none, false⟩
    else if ¬ w.writes then ⟨0, none, false⟩
    else if updateRef then ⟨w.updates, some buf, decide (w.updates = 0)⟩
    else ⟨0, some buf, false⟩
  | _ => ⟨-1, none, false⟩

/-- `git_commit__create_internal`: src/libgit2/commit.c:126-187 -/
def createInternal (size : Nat) (w : World) (updateRef : Bool) (author committer : Signature) (encoding : Option Bytes) (message tree : Bytes)
    (parents : List Bytes) (validate : Bool) : Created :=
  match (if updateRef then w.tip else .ok none) with
  | .ok current =>
    let e := validateTreeAndParents w tree parents current validate
    if e < 0 then ⟨e, none, false⟩
    else writeCommit size w updateRef author committer encoding message tree parents
  | .err e => ⟨e, none, false⟩
  | .ub => ⟨-1, none, false⟩

end Verif.Commit
