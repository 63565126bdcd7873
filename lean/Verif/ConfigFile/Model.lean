import Verif.Sig.Model
import Verif.Commit.Model
import Verif.ConfigVal.Model
/-! # Model of the configuration file parser and writer (`src/libgit2/config_parse.c`, `src/libgit2/config_file.c`)

The parser works on the content of the file: `line` is the unread part of the current line (with its newline) and `text` what follows it
(`git_parse_ctx`, src/libgit2/parse.c:10-50). The callbacks are modelled by the list of the calls (`Event`) the parser makes; the reader and the
writer are folds over that list. Allocation does not fail. Not modelled: error messages and line numbers, `include.path` and `includeIf` (the
entries are those of the file itself), the limit of `INT_MAX` on the length of a section header, locking and replacing the file
(area `FileBuf`), and regular expressions (a predicate on values).
-/
namespace Verif.ConfigFile
open Commit (isspace)
open ConfigVal (toLower caseEq)
open Sig (cstr)

/-! ### lines -/

/-- the first line with its newline, `git__linenlen`: src/util/util.c:324-328, src/libgit2/parse.c:26-36 -/
def lineOf : Bytes → Bytes
  | [] => []
  | c :: r => if c = c!"\n" then [c] else c :: lineOf r

/-- what follows the first line, `git_parse_advance_line`: src/libgit2/parse.c:36-42 -/
def afterLine : Bytes → Bytes
  | [] => []
  | c :: r => if c = c!"\n" then r else afterLine r

/-- `git_parse_advance_ws`: src/libgit2/parse.c:65-79 -/
def skipWs (line : Bytes) : Bytes := line.dropWhile fun c => c ≠ c!"\n" ∧ isspace c

/-- the two calls of `git_parse_peek` in the loop of `git_config_parse`: src/libgit2/config_parse.c:514-516, src/libgit2/parse.c:118-139 -/
def firstChar (line : Bytes) : Option UInt8 :=
  match line.find? (fun c => !isspace c) with
  | some c => some c
  | none => line.head?

/-- `git__isalnum`: src/util/ctype_compat.h:38-41 -/
def isalnum (c : UInt8) : Bool :=
  (c!"0" ≤ c ∧ c ≤ c!"9") ∨ (c!"A" ≤ c ∧ c ≤ c!"Z") ∨ (c!"a" ≤ c ∧ c ≤ c!"z")

/-- `config_keychar` and `is_namechar`: src/libgit2/config_parse.c:28-31, :352-355 -/
def keychar (c : UInt8) : Bool := isalnum c ∨ c = c!"-"

/-- the space skipped backwards from the end: src/libgit2/config_parse.c:55-58 -/
def rtrim (l : Bytes) : Bytes := (l.reverse.dropWhile isspace).reverse

/-- the loop of `strip_comments`; `prev` is `ptr[-1]`: src/libgit2/config_parse.c:38-53 -/
def stripLoop : Option UInt8 → Nat → Nat → Bytes → Bytes × Nat
  | _, q, _, [] => ([], q)
  | prev, q, bs, c :: r =>
    let q' := if c = c!"\"" ∧ prev ≠ some c!"\\" then q + 1 else q
    if (c = c!";" ∨ c = c!"#") ∧ q' % 2 = 0 ∧ bs % 2 = 0 then ([], q')
    else
      let p := stripLoop (some c) q' (if c = c!"\\" then bs + 1 else 0) r
      (c :: p.1, p.2)

/-- `strip_comments`: src/libgit2/config_parse.c:33-62 -/
def stripComments (line : Bytes) (inQuotes : Nat) : Bytes × Nat :=
  (rtrim (stripLoop none inQuotes 0 line).1, (stripLoop none inQuotes 0 line).2)

/-! ### section headers -/

/-- `end_parse`: the closing quote and bracket: src/libgit2/config_parse.c:139-151 -/
def endSub (l acc : Bytes) : Res (Bytes × Bytes) :=
  match l with
  | c :: d :: r => if c = c!"\"" ∧ d = c!"]" then .ok (acc, r) else .err (-1)
  | _ => .err (-1)

/-- the loop of `parse_subsection_header`; its condition says that `last_quote` lies beyond the current character: src/libgit2/config_parse.c:104-137 -/
def subLoop : Bytes → Bytes → Res (Bytes × Bytes)
  | [], _ => .err (-1)
  | c :: r, acc =>
    if c = c!"\"" then endSub (c :: r) acc
    else if c = c!"\\" then
      match r with
      | [] => .err (-1)
      | d :: r' => if c!"\"" ∈ r'.tail then subLoop r' (acc ++ [d]) else endSub r' (acc ++ [d])
    else if c!"\"" ∈ r.tail then subLoop r (acc ++ [c]) else endSub r (acc ++ [c])

/-- `parse_subsection_header`; gives the name and the rest of the line: src/libgit2/config_parse.c:65-158 -/
def parseSub (base l : Bytes) : Res (Bytes × Bytes) :=
  match l.dropWhile isspace with
  | [] => .err (-1)
  | c :: r =>
    if c ≠ c!"\"" then .err (-1)
    else if c!"\"" ∉ r then .err (-1)
    else subLoop r (base ++ b!".")

/-- the loop of `parse_section_header`: src/libgit2/config_parse.c:191-211 -/
def secLoop : Bytes → Bytes → Res (Bytes × Bytes)
  | [], _ => .err (-1)
  | c :: r, acc =>
    if isspace c then parseSub acc r
    else if !(keychar c) && c ≠ c!"." then .err (-1)
    else if r.head? = some c!"]" then .ok (acc ++ [toLower c], r.tail)
    else secLoop r (acc ++ [toLower c])

/-- the text of the line as a C string, after `git_parse_advance_ws` and `git__strndup`: src/libgit2/config_parse.c:169-172, :404-406 -/
def lineStr (line : Bytes) : Bytes := cstr (skipWs line)

/-- `parse_section_header` on the C string of the line: src/libgit2/config_parse.c:174-228 -/
def parseHeaderStr (l : Bytes) : Res (Bytes × Bytes) :=
  if c!"]" ∉ l then .err (-1)
  else
    match l with
    | [] => .err (-1)
    | c :: r => if c ≠ c!"[" then .err (-1) else secLoop r []

/-- `parse_section_header` and `git_parse_advance_chars`: the name and what is left of the line: src/libgit2/config_parse.c:160-228, :496-500 -/
def parseHeader (line : Bytes) : Res (Bytes × Bytes) :=
  match parseHeaderStr (lineStr line) with
  | .ok p => .ok (p.1, (skipWs line).drop ((lineStr line).length - p.2.length))
  | .err e => .err e
  | .ub => .ub

/-! ### variables -/

/-- the character an escape stands for: src/libgit2/config_parse.c:12-13 -/
def escaped (c : UInt8) : Option UInt8 :=
  if c = c!"n" then some c!"\n" else if c = c!"t" then some c!"\t" else if c = c!"b" then some 8
  else if c = c!"\"" then some c!"\"" else if c = c!"\\" then some c!"\\" else none

/-- one more character in front of an unescaped line: src/libgit2/config_parse.c:306, :305 -/
def consTo (c : UInt8) : Res (Bytes × Bool) → Res (Bytes × Bool)
  | .ok p => .ok (c :: p.1, p.2)
  | .err e => .err e
  | .ub => .ub

/-- `unescape_line`; the flag is `is_multi`: src/libgit2/config_parse.c:283-327 -/
def unescape : Bytes → Res (Bytes × Bool)
  | [] => .ok ([], false)
  | c :: r =>
    if c = c!"\"" then unescape r
    else if c ≠ c!"\\" then consTo c (unescape r)
    else
      match r with
      | [] => .ok ([], true)
      | d :: r' =>
        match escaped d with
        | none => .err (-1)
        | some e => consTo e (unescape r')

/-- what a value was parsed to: the value, the text that follows its last line, and whether the file ended where a continuation was due [src/libgit2/config_parse.c:329-382, 423-478 (the output parameters)] -/
structure Val where
  value : Bytes
  rest : Bytes
  unfinished : Bool
  deriving DecidableEq

/-- `parse_multiline_variable`; `text` follows the current line: src/libgit2/config_parse.c:329-382 -/
def multi : Nat → Bytes → Nat → Bytes → Res Val
  | 0, _, _, _ => .ub
  | fuel + 1, text, inq, val =>
    if cstr (lineOf text) = [] then .ok ⟨val, afterLine text, text = []⟩
    else if (stripComments (cstr (lineOf text)) inq).1 = [] then
      multi fuel (afterLine text) (stripComments (cstr (lineOf text)) inq).2 val
    else
      match unescape (stripComments (cstr (lineOf text)) inq).1 with
      | .err e => .err e
      | .ub => .ub
      | .ok u =>
        if u.2 then multi fuel (afterLine text) (stripComments (cstr (lineOf text)) inq).2 (val ++ u.1)
        else .ok ⟨val ++ u.1, afterLine text, false⟩

/-- `parse_name`: the name, and the text after `=`: src/libgit2/config_parse.c:389-421 -/
def parseName (l : Bytes) : Res (Bytes × Option Bytes) :=
  if l.takeWhile keychar = [] then .err (-1)
  else
    match (l.dropWhile keychar).dropWhile isspace with
    | [] => .ok (l.takeWhile keychar, none)
    | c :: v => if c = c!"=" then .ok (l.takeWhile keychar, some v) else .err (-1)

/-- the value of a variable, if there is one: src/libgit2/config_parse.c:447-466 -/
def parseValue (q : Nat) (v : Option Bytes) (text : Bytes) : Res (Option Bytes × Bytes × Bool) :=
  match v with
  | none => .ok (none, text, false)
  | some w =>
    match unescape (w.dropWhile isspace) with
    | .err e => .err e
    | .ub => .ub
    | .ok u =>
      if u.2 then
        match multi (text.length + 1) text (q % 2) u.1 with
        | .ok r => .ok (some r.value, r.rest, r.unfinished)
        | .err e => .err e
        | .ub => .ub
      else .ok (some u.1, text, false)

/-- what a variable was parsed to [src/libgit2/config_parse.c:423-478 (the output parameters)] -/
structure Var where
  name : Bytes
  value : Option Bytes
  rest : Bytes
  unfinished : Bool
  deriving DecidableEq

/-- `parse_variable`: src/libgit2/config_parse.c:423-478 -/
def parseVariable (line text : Bytes) : Res Var :=
  match parseName (stripComments (lineStr line) 0).1 with
  | .err e => .err e
  | .ub => .ub
  | .ok n =>
    match parseValue (stripComments (lineStr line) 0).2 n.2 text with
    | .err e => .err e
    | .ub => .ub
    | .ok v => .ok ⟨n.1, v.1, v.2.1, v.2.2⟩

/-! ### the loop -/

/-- The calls of the callbacks. `raw` is the text handed over (`line_start`, `line_len`); `inl` says that the parser had restarted behind a section
header on the same line, `cur` is `current_section`. `unfinished` is not handed over: it records that the file ends in a continued value. [src/libgit2/config_parse.h:27-55] -/
inductive Event where
  | sect (name raw : Bytes) (inl : Bool)
  | var (cur : Option Bytes) (name : Bytes) (value : Option Bytes) (raw : Bytes) (inl unfinished : Bool)
  | comment (raw : Bytes) (inl : Bool)
  deriving DecidableEq

/-- the events of a line, the section after it, and the text after it and its continuations [src/libgit2/config_parse.c:491-581 (the loop variables)] -/
structure LineRes where
  events : List Event
  cur : Option Bytes
  rest : Bytes
  deriving DecidableEq

/-- the default case: src/libgit2/config_parse.c:558-565 -/
def varLine (cur : Option Bytes) (inl : Bool) (line text : Bytes) : Res LineRes :=
  match parseVariable line text with
  | .err e => .err e
  | .ub => .ub
  | .ok v => .ok ⟨[.var cur v.name v.value (line ++ text.take (text.length - v.rest.length)) inl v.unfinished], cur, v.rest⟩

/-- one more event in front [src/libgit2/config_parse.c:491-581] -/
def consEvent (e : Event) : Res LineRes → Res LineRes
  | .ok r => .ok ⟨e :: r.events, r.cur, r.rest⟩
  | .err e => .err e
  | .ub => .ub

/-- one iteration of the loop of `git_config_parse`, with its restarts: src/libgit2/config_parse.c:498-569 -/
def parseLine : Nat → Option Bytes → Bool → Bytes → Bytes → Res LineRes
  | 0, _, _, _, _ => .ub
  | fuel + 1, cur, inl, line, text =>
    match firstChar line with
    | none => .ok ⟨[], cur, text⟩
    | some c =>
      if c = c!"[" then
        match parseHeader line with
        | .err e => .err e
        | .ub => .ub
        | .ok h =>
          if h.2.any (fun c => !isspace c) then consEvent (.sect h.1 line inl) (parseLine fuel (some h.1) true h.2 text)
          else .ok ⟨[.sect h.1 line inl], some h.1, text⟩
      else if c = c!"\n" ∨ c = c!"\r" ∨ c = c!" " ∨ c = c!"\t" ∨ c = c!";" ∨ c = c!"#" then .ok ⟨[.comment line inl], cur, text⟩
      else varLine cur inl line text

/-- events in front [src/libgit2/config_parse.c:491-581] -/
def prepend (es : List Event) : Res (List Event × Option Bytes) → Res (List Event × Option Bytes)
  | .ok p => .ok (es ++ p.1, p.2)
  | .err e => .err e
  | .ub => .ub

/-- the loop of `git_config_parse`; the last component is the section handed to `on_eof`: src/libgit2/config_parse.c:498-577 -/
def parseLoop : Nat → Option Bytes → Bytes → Res (List Event × Option Bytes)
  | 0, _, _ => .ub
  | fuel + 1, cur, text =>
    if text = [] then .ok ([], cur)
    else
      match parseLine (lineOf text).length.succ cur false (lineOf text) (afterLine text) with
      | .err e => .err e
      | .ub => .ub
      | .ok r => prepend r.events (parseLoop fuel r.cur r.rest)

/-- `skip_bom`: src/libgit2/config_parse.c:229-241, src/util/str.c:1274-1298 -/
def skipBom : Bytes → Bytes
  | 0xEF :: 0xBB :: 0xBF :: r => r
  | t => t

/-- `git_config_parse`: src/libgit2/config_parse.c:491-581 -/
def parse (file : Bytes) : Res (List Event × Option Bytes) :=
  parseLoop ((skipBom file).length + 1) none (skipBom file)

/-! ### reading -/

/-- a configuration entry: its full name and its value (`none` for a variable without `=`) [include/git2/config.h:103-124] -/
abbrev Entry := Bytes × Option Bytes

/-- the full name `read_on_variable` gives a variable: src/libgit2/config_file.c:780-790 -/
def fullName (cur : Option Bytes) (name : Bytes) : Bytes :=
  match cur with
  | none => name.map toLower
  | some s => s ++ b!"." ++ name.map toLower

/-- `read_on_variable`: src/libgit2/config_file.c:764-833 -/
def entryOf : Event → List Entry
  | .var cur name value _ _ _ => [(fullName cur name, value)]
  | _ => []

/-- `config_file_read_buffer`: the entries of the list in order: src/libgit2/config_file.c:835-875 -/
def readEntries (file : Bytes) : Res (List Entry) :=
  if file.head? = some 0 then .ok []
  else match parse file with
  | .ok p => .ok (p.1.flatMap entryOf)
  | .err e => .err e
  | .ub => .ub

/-- `git_config_list_get`: the last entry of that name: src/libgit2/config_list.c:162-206 -/
def listGet (l : List Entry) (key : Bytes) : Option (Option Bytes) :=
  ((l.filter fun e => e.1 = key).getLast?).map (·.2)

/-! ### writing -/

/-- `strchr(git_config_escaped, c)`: src/libgit2/config_file.c:548, src/libgit2/config_parse.c:12-13 -/
def escapeOf (c : UInt8) : Option UInt8 :=
  if c = c!"\n" then some c!"n" else if c = c!"\t" then some c!"t" else if c = 8 then some c!"b"
  else if c = c!"\"" then some c!"\"" else if c = c!"\\" then some c!"\\" else none

/-- one character escaped: src/libgit2/config_file.c:548-553 -/
def escapeChar (c : UInt8) : Bytes :=
  match escapeOf c with
  | some e => [c!"\\", e]
  | none => [c]

/-- `escape_value`: src/libgit2/config_file.c:533-562 -/
def escapeValue (v : Bytes) : Bytes := v.flatMap escapeChar

/-- `quotes_for_value`: src/libgit2/config_file.c:937-953 -/
def quotesFor (w : Bytes) : Bytes :=
  if w.head? = some c!" " ∨ w = [] then b!"\""
  else if w.any (fun c => c = c!";" || c = c!"#") then b!"\""
  else if w.getLast? = some c!" " then b!"\""
  else []

/-- the line `write_value` prints: src/libgit2/config_file.c:990-992 -/
def valueLine (name w : Bytes) : Bytes := b!"\t" ++ name ++ b!" = " ++ quotesFor w ++ w ++ quotesFor w ++ b!"\n"

/-- `write_section`: src/libgit2/config_file.c:907-935 -/
def sectionLine (key : Bytes) : Bytes :=
  if c!"." ∉ key then b!"[" ++ key ++ b!"]\n"
  else
    b!"[" ++ key.takeWhile (· ≠ c!".") ++ b!" \"" ++ escapeValue ((key.dropWhile (· ≠ c!".")).drop 1) ++ b!"\"" ++ b!"]\n"

/-- `write_line_to`: src/libgit2/config_file.c:968-976 -/
def withNl (l : Bytes) : Bytes :=
  match l.getLast? with
  | none => l
  | some c => if c = c!"\n" then l else l ++ b!"\n"

/-- what is to be written: the constant part of `write_data`: src/libgit2/config_file.c:954-965 -/
structure Target where
  origSection : Bytes
  section' : Bytes
  origName : Bytes
  name : Bytes
  preg : Option (Bytes → Bool)

/-- the changing part of `write_data`: src/libgit2/config_file.c:954-965 -/
structure WState where
  buf : Bytes
  comment : Bytes
  inSection : Bool
  value : Option Bytes
  replaced : Bool

/-- `write_value`: src/libgit2/config_file.c:983-1000 -/
def writeValue (t : Target) (w : WState) (v : Bytes) : WState :=
  { w with buf := w.buf ++ valueLine t.origName v, value := if t.preg.isNone then none else w.value }

/-- the value at the end of the section that is left: src/libgit2/config_file.c:1018-1020 -/
def leaveSection (t : Target) (w : WState) : WState :=
  match w.value with
  | none => w
  | some v => if w.inSection ∧ t.preg.isNone then writeValue t w v else w

/-- `write_on_section`: src/libgit2/config_file.c:1002-1036 -/
def onSection (t : Target) (w : WState) (name raw : Bytes) : WState :=
  let w1 := leaveSection t w
  { w1 with inSection := name = t.section', buf := w1.buf ++ w1.comment ++ withNl raw, comment := [] }

/-- whether this is a variable to be changed (`has_matched`); `git_regexp_match` takes the length of a `NULL` value:
src/libgit2/config_file.c:1063-1069, src/util/regexp.c:34-40 -/
def matches' (t : Target) (w : WState) (name : Bytes) (value : Option Bytes) : Res Bool :=
  if w.inSection ∧ caseEq t.name name then
    match t.preg, value with
    | none, _ => .ok true
    | some p, some v => .ok (p v)
    | some _, none => .ub
  else .ok false

/-- `write_on_variable`: src/libgit2/config_file.c:1038-1084 -/
def onVariable (t : Target) (w : WState) (name : Bytes) (value : Option Bytes) (raw : Bytes) : Res WState :=
  let w1 := { w with buf := w.buf ++ w.comment, comment := [] }
  match matches' t w1 name value with
  | .err e => .err e
  | .ub => .ub
  | .ok false => .ok { w1 with buf := w1.buf ++ withNl raw }
  | .ok true =>
    match w1.value with
    | none => .ok { w1 with replaced := true }
    | some v => .ok (writeValue t { w1 with replaced := true } v)

/-- `write_on_comment`: src/libgit2/config_file.c:1086-1094 -/
def onComment (w : WState) (raw : Bytes) : WState := { w with comment := w.comment ++ withNl raw }

/-- one call of a callback of the writer [src/libgit2/config_file.c:1002-1094] -/
def onEvent (t : Target) (w : WState) : Event → Res WState
  | .sect name raw _ => .ok (onSection t w name raw)
  | .var _ name value raw _ _ => onVariable t w name value raw
  | .comment raw _ => .ok (onComment w raw)

/-- the calls in order [src/libgit2/config_file.c:1002-1094, 1182] -/
def onEvents (t : Target) (w : WState) : List Event → Res WState
  | [] => .ok w
  | e :: es =>
    match onEvent t w e with
    | .ok w' => onEvents t w' es
    | .err e => .err e
    | .ub => .ub

/-- the header written at the end of the file unless its section is the current one: src/libgit2/config_file.c:1117-1118 -/
def eofHeader (t : Target) (cur : Option Bytes) : Bytes :=
  if cur = some t.section' then [] else sectionLine t.origSection

/-- `write_on_eof`: src/libgit2/config_file.c:1096-1125 -/
def onEof (t : Target) (w : WState) (cur : Option Bytes) : Bytes :=
  match w.value with
  | none => w.buf ++ w.comment
  | some v =>
    if t.preg.isNone ∨ ¬w.replaced then w.buf ++ w.comment ++ eofHeader t cur ++ valueLine t.origName v
    else w.buf ++ w.comment

/-- the part before the last dot: src/libgit2/config_file.c:1168-1176 -/
def sectionPart (key : Bytes) : Bytes := ((key.reverse.dropWhile (· ≠ c!".")).drop 1).reverse

/-- the part after the last dot: src/libgit2/config_file.c:1168-1176 -/
def namePart (key : Bytes) : Bytes := (key.reverse.takeWhile (· ≠ c!".")).reverse

/-- `config_file_write`: the new content of the file: src/libgit2/config_file.c:1130-1203 -/
def fileWrite (file origKey key : Bytes) (preg : Option (Bytes → Bool)) (value : Option Bytes) : Res Bytes :=
  let t : Target := ⟨sectionPart origKey, sectionPart key, namePart origKey, namePart key, preg⟩
  match parse file with
  | .err e => .err e
  | .ub => .ub
  | .ok p =>
    match onEvents t ⟨[], [], false, value, false⟩ p.1 with
    | .err e => .err e
    | .ub => .ub
    | .ok w => .ok (onEof t w p.2)

/-! ### the functions of the backend -/

/-- `normalize_section`: src/libgit2/config.c:1517-1538 -/
def sectionOk : Bytes → Bool
  | [] => false
  | c :: r => isalnum c && r.all keychar

/-- `git_config__normalize_name`: src/libgit2/config.c:1542-1575 -/
def normalizeName (s : Bytes) : Res Bytes :=
  let pre := s.takeWhile (· ≠ c!".")
  let mid := (s.drop pre.length).take (s.length - pre.length - (namePart s).length)
  if c!"." ∉ s then .err (-12)
  else if ¬sectionOk pre ∨ ¬sectionOk (namePart s) then .err (-12)
  else if c!"\n" ∈ mid then .err (-12)
  else .ok (pre.map toLower ++ mid ++ (namePart s).map toLower)

/-- `config_file_set` with a value: the new content of the file: src/libgit2/config_file.c:294-334 -/
def set (file name value : Bytes) : Res Bytes :=
  match normalizeName name with
  | .err e => .err e
  | .ub => .ub
  | .ok key =>
    match readEntries file with
    | .err e => .err e
    | .ub => .ub
    | .ok l =>
      match l.filter fun e => e.1 = key with
      | [] => fileWrite file name key none (some (escapeValue value))
      | [e] => if e.2 = some value then .ok file else fileWrite file name key none (some (escapeValue value))
      | _ => .err (-1)

/-- `config_file_delete`: src/libgit2/config_file.c:392-420 -/
def delete (file name : Bytes) : Res Bytes :=
  match normalizeName name with
  | .err e => .err e
  | .ub => .ub
  | .ok key =>
    match readEntries file with
    | .err e => .err e
    | .ub => .ub
    | .ok l =>
      match l.filter fun e => e.1 = key with
      | [] => .err (-3)
      | [e] => fileWrite file name e.1 none none
      | _ => .err (-1)

/-- `config_file_set_multivar`; the value is not escaped: src/libgit2/config_file.c:364-388 -/
def setMultivar (file name : Bytes) (preg : Bytes → Bool) (value : Bytes) : Res Bytes :=
  match normalizeName name with
  | .err e => .err e
  | .ub => .ub
  | .ok key => fileWrite file name key (some preg) (some value)

/-- `config_file_delete_multivar`: src/libgit2/config_file.c:422-454 -/
def deleteMultivar (file name : Bytes) (preg : Bytes → Bool) : Res Bytes :=
  match normalizeName name with
  | .err e => .err e
  | .ub => .ub
  | .ok key =>
    match readEntries file with
    | .err e => .err e
    | .ub => .ub
    | .ok l => if (l.filter fun e => e.1 = key) = [] then .err (-3) else fileWrite file name key (some preg) none

end Verif.ConfigFile
