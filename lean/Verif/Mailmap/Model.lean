import Verif.Mailmap.Spec
import Verif.Cmp
import Verif.Sort.Model
/-! # Model of `src/libgit2/mailmap.c`

A `git_mailmap` is its vector of entries (that inserting with `git_vector_insert_sorted` keeps a vector and its flags consistent is C49), searched
with the modelled `Sort.bsearch`. Texts given by the user are C strings without NUL. Allocation failure is not modelled. -/
namespace Verif.Mailmap
open Spec (Entry Call Repo)

/-! ## The entries -/

/-- `mailmap_entry_cmp`: src/libgit2/mailmap.c:42-60 -/
def entryCmp (a b : Entry) : Int :=
  if bcmp a.email b.email ≠ 0 then bcmp a.email b.email
  else match a.name, b.name with
    | none, none => 0
    | none, some _ => -1
    | some _, none => 1
    | some x, some y => bcmp x y

/-- `git_vector_insert_sorted` with `mailmap_entry_replace`: src/libgit2/mailmap.c:63-68, 208, src/util/vector.c:150-183 -/
def insert (mm : List Entry) (e : Entry) : Res (List Entry) :=
  match Sort.bsearch (entryCmp e) mm with
  | .ok r => .ok (if r.1 then mm.set r.2 e else mm.take r.2 ++ e :: mm.drop r.2)
  | .err c => .err c
  | .ub => .ub

/-- a text of `size` bytes is copied if `size > 0`, otherwise the pointer stays NULL: src/libgit2/mailmap.c:192-203 -/
def copied (s : Bytes) : Option Bytes := if s.length > 0 then some s else none

/-- `mailmap_add_entry_unterminated`: src/libgit2/mailmap.c:180-216. A missing text has size 0. The email must not be empty (`*replace_email`):
a text attached by the parser (`git_str_attach_notowned`, src/util/str.c:658-670) that is empty points to an empty string. -/
def addEntryUnterminated (mm : List Entry) (realName realEmail name email : Bytes) : Res (List Entry) :=
  if email = [] then .err (-1)
  else insert mm ⟨copied realName, copied realEmail, copied name, email⟩

/-- `git_mailmap_add_entry`: src/libgit2/mailmap.c:218-228. `none` is a NULL pointer; `strlen` of the email is taken unconditionally. -/
def addEntry (mm : List Entry) (realName realEmail name email : Option Bytes) : Res (List Entry) :=
  match email with
  | none => .ub
  | some email => addEntryUnterminated mm (realName.getD []) (realEmail.getD []) (name.getD []) email

/-- a program making these calls and ignoring the codes they return [no code: src/libgit2/mailmap.c:218-228 repeated] -/
def addAll (mm : List Entry) : List Call → Res (List Entry)
  | [] => .ok mm
  | c :: cs =>
    match addEntry mm c.realName c.realEmail c.name (some c.email) with
    | .ok mm => addAll mm cs
    | .err _ => addAll mm cs
    | .ub => .ub

/-! ## The parser -/

/-- `git__isspace`: src/util/ctype_compat.h:43-46 -/
def isSpace (c : UInt8) : Bool := c = c!" " || c = c!"\t" || c = c!"\n" || c = 0x0c || c = c!"\r" || c = 0x0b

/-- `git_parse_ctx`: src/libgit2/parse.h:16-28. What is left of the line, with its line feed, and what follows the line; `remain` is both. -/
structure Ctx where
  line : Bytes
  rest : Bytes
  deriving Repr, DecidableEq

/-- `git__linenlen`: src/util/util.c:324-328 -/
def lineLen (b : Bytes) : Nat :=
  if c!"\n" ∈ b then (b.takeWhile (fun c => c ≠ c!"\n")).length + 1 else b.length

/-- `git_parse_ctx_init`: src/libgit2/parse.c:10-27 -/
def ctxInit (b : Bytes) : Ctx := ⟨b.take (lineLen b), b.drop (lineLen b)⟩

/-- `git_parse_advance_line`: src/libgit2/parse.c:35-41 -/
def advanceLine (ctx : Ctx) : Ctx := ⟨ctx.rest.take (lineLen ctx.rest), ctx.rest.drop (lineLen ctx.rest)⟩

/-- `git_parse_advance_chars`: src/libgit2/parse.c:43-48 -/
def advanceChars (ctx : Ctx) (n : Nat) : Ctx := { ctx with line := ctx.line.drop n }

/-- `git_parse_advance_ws`: src/libgit2/parse.c:65-79 -/
def advanceWs (ctx : Ctx) : Ctx := { ctx with line := ctx.line.dropWhile (fun c => c ≠ c!"\n" && isSpace c) }

/-- `is_eol`: src/libgit2/mailmap.c:71-75; `git_parse_peek`: src/libgit2/parse.c:118-138 -/
def isEol (ctx : Ctx) : Bool :=
  match (ctx.line.dropWhile isSpace).head? with
  | none => true
  | some c => c = c!"#"

/-- `advance_until`: src/libgit2/mailmap.c:77-90. The text before the needle, or none if the line (or what precedes a `#`) ends before it. -/
def advanceUntil (ctx : Ctx) (needle : UInt8) : Option Bytes × Ctx :=
  match ctx.line.dropWhile (fun c => c ≠ c!"#" && c ≠ needle) with
  | [] => (none, { ctx with line := [] })
  | c :: l =>
    if c = c!"#" then (none, { ctx with line := c :: l })
    else (some (ctx.line.takeWhile (fun c => c ≠ c!"#" && c ≠ needle)), advanceChars { ctx with line := c :: l } 1)

/-- `git_str_rtrim`: src/util/str.c:869-880 -/
def rtrim (s : Bytes) : Bytes := (s.reverse.dropWhile isSpace).reverse

/-- the four texts of a line: src/libgit2/mailmap.c:98-101 -/
structure Parsed where
  realName : Bytes
  realEmail : Bytes
  name : Bytes
  email : Bytes
  deriving Repr, DecidableEq

/-- the second name and email, if the line goes on: src/libgit2/mailmap.c:131-148; `start` is the text found before -/
def parseSecond (realName start : Bytes) (ctx : Ctx) : Option Parsed × Ctx :=
  if isEol ctx then (some ⟨realName, [], [], start⟩, ctx)
  else
    match advanceUntil (advanceWs ctx) c!"<" with
    | (none, ctx) => (none, ctx)
    | (some name, ctx) =>
      match advanceUntil ctx c!">" with
      | (none, ctx) => (none, ctx)
      | (some email, ctx) => if isEol ctx then (some ⟨realName, start, rtrim name, email⟩, ctx) else (none, ctx)

/-- `parse_mailmap_entry`: src/libgit2/mailmap.c:98-149 -/
def parseEntry (ctx : Ctx) : Option Parsed × Ctx :=
  if isEol (advanceWs ctx) then (none, advanceWs ctx)
  else
    match advanceUntil (advanceWs ctx) c!"<" with
    | (none, ctx) => (none, ctx)
    | (some name, ctx) =>
      match advanceUntil ctx c!">" with
      | (none, ctx) => (none, ctx)
      | (some start, ctx) => parseSecond (rtrim name) start ctx

/-- the loop of `mailmap_add_buffer`: src/libgit2/mailmap.c:247-264. The code returned, and the entries; running out of fuel is `ub`. -/
def addLoop : Nat → List Entry → Ctx → Res (Int × List Entry)
  | 0, _, _ => .ub
  | fuel + 1, mm, ctx =>
    if ctx.line.length + ctx.rest.length = 0 then .ok (0, mm)
    else
      match parseEntry ctx with
      | (none, ctx) => addLoop fuel mm (advanceLine ctx)
      | (some p, ctx) =>
        match addEntryUnterminated mm p.realName p.realEmail p.name p.email with
        | .ok mm => addLoop fuel mm ctx
        | .err e => .ok (e, mm)
        | .ub => .ub

/-- `mailmap_add_buffer`: src/libgit2/mailmap.c:230-273. The code returned, and the entries (those added before an error stay). -/
def addBuffer (mm : List Entry) (text : Bytes) : Res (Int × List Entry) :=
  if (0 : UInt8) ∈ text then .ok (-1, mm) else addLoop (2 * text.length + 2) mm (ctxInit text)

/-- `git_mailmap_from_buffer`: src/libgit2/mailmap.c:275-287 -/
def fromBuffer (text : Bytes) : Res (List Entry) :=
  match addBuffer [] text with
  | .ok (c, mm) => if c < 0 then .err c else .ok mm
  | .err e => .err e
  | .ub => .ub

/-! ## The mailmap of a repository -/

/-- `mailmap_add_blob` and `mailmap_add_file_ondisk`, errors ignored: src/libgit2/mailmap.c:289-351, 385-390. Reading files and blobs is not
modelled: `none` is a text that cannot be read. -/
def addText (mm : List Entry) (text : Option Bytes) : Res (List Entry) :=
  match text with
  | none => .ok mm
  | some text => match addBuffer mm text with
    | .ok r => .ok r.2
    | .err e => .err e
    | .ub => .ub

/-- the revision of the blob: src/libgit2/mailmap.c:362-370 -/
def blobRev (r : Repo) : Option Bytes :=
  match r.cfgBlob with
  | some rev => some rev
  | none => if r.bare then some b!"HEAD:.mailmap" else none

/-- `mailmap_add_from_repository`: src/libgit2/mailmap.c:354-395; the last three loads at :385-390 -/
def addFromRepository (mm : List Entry) (r : Repo) : Res (List Entry) :=
  addText mm (if r.bare then none else r.file b!".mailmap") >>= fun mm =>
  addText mm ((blobRev r).bind r.blob) >>= fun mm =>
  addText mm (r.cfgFile.bind r.file)

/-- `git_mailmap_from_repository`: src/libgit2/mailmap.c:397-409 -/
def fromRepository (r : Repo) : Res (List Entry) := addFromRepository [] r

/-! ## Looking up -/

/-- the linear search: src/libgit2/mailmap.c:437-449, on what the vector holds from `idx` on. `none`: the end of the entries with this email
is reached; `some none`: NULL is returned, because an entry without a name is found. The name is never NULL (:463). -/
def scan (name email : Bytes) : List Entry → Option (Option Entry)
  | [] => none
  | e :: es =>
    if e.email ≠ email then none
    else
      match e.name with
      | none => some none
      | some n => if n = name then some (some e) else scan name email es

/-- `git_mailmap_entry_lookup`: src/libgit2/mailmap.c:411-455 -/
def lookup (mm : List Entry) (name email : Bytes) : Res (Option Entry) :=
  match Sort.bsearch (entryCmp ⟨none, none, none, email⟩) mm with
  | .err e => .err e
  | .ub => .ub
  | .ok (found, idx) =>
    match scan name email (mm.drop (if found then idx + 1 else idx)) with
    | some e => .ok e
    | none => .ok (if found then mm[idx]? else none)

/-- `git_mailmap_resolve`: src/libgit2/mailmap.c:457-477; a NULL mailmap is none -/
def resolve (mm : Option (List Entry)) (name email : Bytes) : Res (Bytes × Bytes) :=
  match mm with
  | none => .ok (name, email)
  | some mm =>
    match lookup mm name email with
    | .ok (some e) => .ok (e.realName.getD name, e.realEmail.getD email)
    | .ok none => .ok (name, email)
    | .err e => .err e
    | .ub => .ub

end Verif.Mailmap
