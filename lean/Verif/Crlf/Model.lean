import Verif.Base
/-! # Line-ending conversion: src/util/str.c, src/libgit2/crlf.c

Buffers are byte lists. The counters of `git_str_text_stats` are numbers without bound (files below 4 GiB). Memory allocation succeeds.
Attributes, configuration and the index entry of the path are arguments. -/
namespace Verif.Crlf

/-- the loop of `git_str_crlf_to_lf`: src/util/str.c:1139-1150, with the copy of the remaining input, :1153-1157. `s` is the text from
`scan` on, `fuel` bounds the number of turns. -/
def toLfLoop : Nat → Bytes → Bytes → Bytes
  | 0, s, out => out ++ s
  | fuel + 1, s, out =>
    if c!"\r" ∈ s then
      let chunk := s.takeWhile (· ≠ c!"\r")
      let rest := s.drop (chunk.length + 1)
      let out := out ++ chunk
      let out := if rest = [] ∨ rest.head? ≠ some c!"\n" then out ++ b!"\r" else out
      toLfLoop fuel rest out
    else out ++ s

/-- `git_str_crlf_to_lf`: src/util/str.c:1119-1164; the room is for as many bytes as the source has -/
def crlfToLf (src : Bytes) : Res Bytes :=
  if c!"\r" ∈ src then
    let out := toLfLoop (src.length + 1) src []
    if out.length ≤ src.length then .ok out else .ub
  else .ok src

/-- the loop of `git_str_lf_to_crlf`: src/util/str.c:1185-1204, and the last `git_str_put`, :1207 -/
def toCrlfLoop : Nat → Bytes → Bytes → Bytes
  | 0, s, out => out ++ s
  | fuel + 1, s, out =>
    if c!"\n" ∈ s then
      let chunk := s.takeWhile (· ≠ c!"\n")
      let copylen := if chunk.getLast? = some c!"\r" then chunk.length - 1 else chunk.length
      toCrlfLoop fuel (s.drop (chunk.length + 1)) (out ++ chunk.take copylen ++ b!"\r\n")
    else out ++ s

/-- `git_str_lf_to_crlf`: src/util/str.c:1166-1208 -/
def lfToCrlf (src : Bytes) : Bytes :=
  if c!"\n" ∈ src then toCrlfLoop (src.length + 1) src [] else src

/-- `git_str_text_stats` without the byte order mark, which no caller here looks at: src/util/str.h -/
structure Stats where
  nul : Nat := 0
  cr : Nat := 0
  lf : Nat := 0
  crlf : Nat := 0
  printable : Nat := 0
  nonprintable : Nat := 0
  deriving DecidableEq, Repr

/-- the counting loop: src/util/str.c:1341-1367 -/
def countLoop : Bytes → Stats → Stats
  | [], st => st
  | c :: rest, st =>
    let st :=
      if c > 0x1f ∧ c ≠ 0x7f then { st with printable := st.printable + 1 }
      else if c = 0 then { st with nul := st.nul + 1, nonprintable := st.nonprintable + 1 }
      else if c = c!"\n" then { st with lf := st.lf + 1 }
      else if c = c!"\r" then { st with cr := st.cr + 1, crlf := if rest.head? = some c!"\n" then st.crlf + 1 else st.crlf }
      else if c = c!"\t" ∨ c = 0x0c ∨ c = 0x0b ∨ c = 0x08 ∨ c = 0x1b then { st with printable := st.printable + 1 }
      else { st with nonprintable := st.nonprintable + 1 }
    countLoop rest st

/-- `git_str_gather_text_stats` with `skip_bom` false: src/util/str.c:1322-1372; the statistics and whether the text looks binary -/
def gather (b : Bytes) : Stats × Bool :=
  let body := if b.getLast? = some 0x1a then b.dropLast else b
  let st := countLoop body {}
  (st, st.cr ≠ st.crlf ∨ st.nul > 0 ∨ st.printable / 128 < st.nonprintable)

/-- `git_crlf_t`: src/libgit2/crlf.c:21-30 -/
inductive Action
  | undefined | binary | text | textInput | textCrlf | auto | autoInput | autoCrlf
  deriving DecidableEq, Repr

/-- an attribute value: include/git2/attr.h:37-85 -/
inductive Attr
  | unspecified | true | false | value (s : Bytes)
  deriving DecidableEq, Repr

/-- `core.autocrlf`: src/libgit2/repository.h:79-82 -/
inductive AutoCrlf | false | true | input deriving DecidableEq, Repr
/-- `core.safecrlf`: src/libgit2/repository.h:74-76 -/
inductive SafeCrlf | false | fail | warn deriving DecidableEq, Repr
/-- `core.eol`, and the result of `output_eol`: src/libgit2/repository.h:85-93 -/
inductive Eol | unset | crlf | lf deriving DecidableEq, Repr

/-- `check_crlf`: src/libgit2/crlf.c:45-59 -/
def checkCrlf : Attr → Action
  | .true => .text
  | .false => .binary
  | .unspecified => .undefined
  | .value s => if s = b!"input" then .textInput else if s = b!"auto" then .auto else .undefined

/-- `check_eol`: src/libgit2/crlf.c:61-71 -/
def checkEol : Attr → Eol
  | .value s => if s = b!"lf" then .lf else if s = b!"crlf" then .crlf else .unset
  | _ => .unset

/-- the repository's settings; `native` is `GIT_EOL_NATIVE`: src/libgit2/repository.h:88-92 -/
structure Config where
  auto : AutoCrlf
  safe : SafeCrlf
  eol : Eol
  native : Eol
  deriving DecidableEq, Repr

/-- `struct crlf_attrs`: src/libgit2/crlf.c:32-39, without `attr_action`, which is never read -/
structure Attrs where
  action : Action
  cfg : Config
  deriving DecidableEq, Repr

/-- `text_eol_is_crlf`: src/libgit2/crlf.c:115-128 -/
def textEolIsCrlf (c : Config) : Bool :=
  if c.auto = .true then true
  else if c.auto = .input then false
  else c.eol = .crlf ∨ (c.eol = .unset ∧ c.native = .crlf)

/-- `output_eol`: src/libgit2/crlf.c:130-151 -/
def outputEol (ca : Attrs) : Eol :=
  match ca.action with
  | .binary => .unset
  | .textCrlf => .crlf
  | .textInput => .lf
  | .undefined | .autoCrlf => .crlf
  | .autoInput => .lf
  | .text | .auto => if textEolIsCrlf ca.cfg then .crlf else .lf

/-- what `crlf.c` treats as automatic: src/libgit2/crlf.c:226-228, :279-281 -/
def isAuto (a : Action) : Bool := a = .auto ∨ a = .autoInput ∨ a = .autoCrlf

/-- what the index has for the path: no entry, an entry that is not a regular file, or a file with its contents (`none`: unreadable) [what src/libgit2/crlf.c:73-113 finds] -/
inductive Entry
  | absent | other | file (blob : Option Bytes)
  deriving DecidableEq, Repr

/-- `has_cr_in_index`: src/libgit2/crlf.c:73-113 -/
def hasCrInIndex : Entry → Bool
  | .absent => false
  | .other => true
  | .file none => false
  | .file (some b) => b.contains c!"\r"

/-- `check_safecrlf`: src/libgit2/crlf.c:153-206 -/
def checkSafe (ca : Attrs) (st : Stats) : Res Unit :=
  if ca.cfg.safe = .false then .ok ()
  else if outputEol ca = .lf then
    if st.crlf ≠ 0 ∧ ca.cfg.safe ≠ .warn then .err (-1) else .ok ()
  else if outputEol ca = .crlf then
    if st.crlf ≠ st.lf ∧ ca.cfg.safe ≠ .warn then .err (-1) else .ok ()
  else .ok ()

/-- `crlf_apply_to_odb`: src/libgit2/crlf.c:208-251; `GIT_PASSTHROUGH` is the unchanged text (src/libgit2/filter.c:942-943) -/
def toOdb (ca : Attrs) (e : Entry) (b : Bytes) : Res Bytes :=
  if ca.action = .binary ∨ b = [] then .ok b
  else
    let g := gather b
    if isAuto ca.action ∧ g.2 then .ok b
    else if isAuto ca.action ∧ hasCrInIndex e then .ok b
    else do
      checkSafe ca g.1
      if g.1.crlf = 0 then .ok b else crlfToLf b

/-- `crlf_apply_to_workdir`: src/libgit2/crlf.c:253-285 -/
def toWorkdir (ca : Attrs) (b : Bytes) : Bytes :=
  if b = [] ∨ outputEol ca ≠ .crlf then b
  else
    let g := gather b
    if g.1.lf = 0 ∨ g.1.lf = g.1.crlf then b
    else if isAuto ca.action ∧ g.1.cr > 0 then b
    else if isAuto ca.action ∧ g.2 then b
    else lfToCrlf b

/-- the eol attribute applied to the text attribute: src/libgit2/crlf.c:316-328 -/
def applyEol (a : Action) (e : Eol) : Action :=
  if a = .binary then a
  else if a = .auto ∧ e = .lf then .autoInput
  else if a = .auto ∧ e = .crlf then .autoCrlf
  else if e = .lf then .textInput
  else if e = .crlf then .textCrlf
  else a

/-- the end of `convert_attrs`, which lets the configuration decide: src/libgit2/crlf.c:335-342 -/
def byConfig (a : Action) (c : Config) : Action :=
  let a := if a = .text then (if textEolIsCrlf c then .textCrlf else .textInput) else a
  let a := if a = .undefined ∧ c.auto = .false then .binary else a
  let a := if a = .undefined ∧ c.auto = .true then .autoCrlf else a
  if a = .undefined ∧ c.auto = .input then .autoInput else a

/-- the attributes `crlf`, `eol`, `text` [src/libgit2/crlf.c:287-345] -/
structure Values where
  crlf : Attr
  eol : Attr
  text : Attr
  deriving DecidableEq, Repr

/-- `convert_attrs`: src/libgit2/crlf.c:287-345. `allowUnsafe` is `GIT_FILTER_ALLOW_UNSAFE`; `none` for the configuration means that
reading it failed, after which `crlf_check` (which does not look at the error) goes on with the structure of zeros. -/
def convertAttrs (cfg : Option Config) (allowUnsafe : Bool) (v : Option Values) : Attrs :=
  match cfg with
  | none => ⟨.undefined, ⟨.false, .false, .unset, .lf⟩⟩
  | some c =>
    let c := if allowUnsafe ∧ c.safe = .fail then { c with safe := .warn } else c
    let a : Action := match v with
      | some v =>
        let a := checkCrlf v.text
        let a := if a = .undefined then checkCrlf v.crlf else a
        applyEol a (checkEol v.eol)
      | none => .undefined
    ⟨byConfig a c, c⟩

/-- adding a file: `crlf_check`, then `crlf_apply` (src/libgit2/crlf.c:347-390); a binary file does not get the filter, which `toOdb`
and `toWorkdir` leave alone too -/
def clean (cfg : Option Config) (allowUnsafe : Bool) (v : Option Values) (e : Entry) (b : Bytes) : Res Bytes :=
  let ca := convertAttrs cfg allowUnsafe v
  if ca.action = .binary then .ok b else toOdb ca e b

/-- checking a file out [src/libgit2/crlf.c:253-285, 347-390] -/
def smudge (cfg : Option Config) (allowUnsafe : Bool) (v : Option Values) (b : Bytes) : Bytes :=
  let ca := convertAttrs cfg allowUnsafe v
  if ca.action = .binary then b else toWorkdir ca b

end Verif.Crlf
