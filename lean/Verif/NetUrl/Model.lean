import Verif.NetUrl.Spec
import Verif.NetHost.Model
/-! # Model of `git_net_url_parse` of `src/util/net.c`

Pointers into the text with their lengths are the strings they stand for. The failure of memory allocation is not modelled. -/
namespace Verif.NetUrl
open Verif.NetHost

/-- `git_net_url_parser`, the parts of the authority: src/util/net.c:22-43 -/
structure Auth where
  user : Str
  password : Str
  host : Str
  port : Str
  deriving DecidableEq

/-- the states of `url_parse_authority` in the loop; `hostport` is HOSTPORT, `hostEnd` is HOST_END: src/util/net.c:190-192 -/
inductive St where
  | hostport
  | host
  | ipv6
  | hostEnd
  | userpass
  deriving DecidableEq

/-- `strncasecmp(a, b, len) == 0` for an `a` of `len` characters, that has no NUL: ISO C; used at [src/util/net.c:131-133] -/
def isCasePrefix (a b : Str) : Bool := decide (a.map lower <+: b.map lower)

/-- `is_ssh_scheme`: src/util/net.c:126-134 -/
def isSsh (scheme : Str) : Bool :=
  if scheme = [] then false
  else isCasePrefix scheme "ssh".toList || isCasePrefix scheme "ssh+git".toList || isCasePrefix scheme "git+ssh".toList

/-- characters of an address in brackets: src/util/net.c:255-260 -/
def hexColon (c : Char) : Bool :=
  decide (('0' ≤ c ∧ c ≤ '9') ∨ ('a' ≤ c ∧ c ≤ 'f') ∨ ('A' ≤ c ∧ c ≤ 'F') ∨ c = ':')

/-- one character in the state HOST: `inl` is the next state, what is kept and the parts, `inr` an error. `acc` is what is between the character
and `host_end`: src/util/net.c:227-245 -/
def hostStep (c : Char) (acc : Str) (a : Auth) : Option (St × Str × Auth) :=
  if c = ']' ∧ acc = [] then some (.ipv6, [], a)
  else if c = '@' then some (.userpass, [], { a with host := acc })
  else if c = '[' ∨ c = ']' ∨ c = ':' then none
  else some (.host, c :: acc, a)

/-- the loop of `url_parse_authority` from the end to the beginning, and what follows it; `rest` is what is before the last character looked at,
the other way round, `acc` what was seen of the part that is being read: src/util/net.c:182-321 -/
def authority (ssh : Bool) : St → Str → Str → Auth → Option Auth
  | .hostport, [], acc, a => some { a with host := acc }
  | .host, [], acc, a => some { a with host := acc }
  | .ipv6, [], _, _ => none
  | .hostEnd, [], _, a => some a
  | .userpass, [], acc, a => some { a with user := acc }
  | .hostport, c :: rest, acc, a =>
    if c = ':' then authority ssh .host rest [] { a with port := acc }
    else if c < '0' ∨ '9' < c then
      match hostStep c acc a with
      | none => none
      | some (s, acc, a) => authority ssh s rest acc a
    else authority ssh .hostport rest (c :: acc) a
  | .host, c :: rest, acc, a =>
    match hostStep c acc a with
    | none => none
    | some (s, acc, a) => authority ssh s rest acc a
  | .ipv6, c :: rest, acc, a =>
    if c = '[' then authority ssh .hostEnd rest [] { a with host := acc }
    else if hexColon c = false then none
    else authority ssh .ipv6 rest (c :: acc) a
  | .hostEnd, c :: rest, _, a => if c = '@' then authority ssh .userpass rest [] a else none
  | .userpass, c :: rest, acc, a =>
    if c = '@' ∧ ssh = false then none
    else if c = ':' then some { a with password := acc, user := rest.reverse }
    else authority ssh .userpass rest (c :: acc) a

/-- `url_parse_path`: path, query and fragment: src/util/net.c:323-381 -/
def splitPath (p : Str) : Str × Str × Str :=
  let path := p.takeWhile (fun c => c ≠ '?' ∧ c ≠ '#')
  match p.drop path.length with
  | [] => (path, [], [])
  | c :: r =>
    if c = '?' then (path, r.takeWhile (· ≠ '#'), r.drop ((r.takeWhile (· ≠ '#')).length + 1))
    else (path, [], r)

/-- the value of a hexadecimal digit: [src/util/str.c:474-500] -/
def hexVal (c : Char) : Option Nat :=
  if '0' ≤ c ∧ c ≤ '9' then some (c.toNat - 48)
  else if 'a' ≤ c ∧ c ≤ 'f' then some (c.toNat - 87)
  else if 'A' ≤ c ∧ c ≤ 'F' then some (c.toNat - 55)
  else none

/-- the character of an escape, if there is one: [src/util/str.c:486-492] -/
def escape : Str → Option Char
  | '%' :: a :: b :: _ =>
    match hexVal a, hexVal b with
    | some x, some y => some (Char.ofNat (16 * x + y))
    | _, _ => none
  | _ => none

/-- `git_str_decode_percent`; `skip` characters were read already: src/util/str.c:474-500 -/
def decode : Nat → Str → Str
  | _, [] => []
  | n + 1, _ :: s => decode n s
  | 0, c :: s =>
    match escape (c :: s) with
    | some x => x :: decode 2 s
    | none => c :: decode 0 s

/-- what was put in a buffer and detached, NULL if nothing was: the string ends at its first NUL: [src/util/str.c:629-639] -/
def detach (s : Str) : Option Str := if s = [] then none else some (s.takeWhile (· ≠ '\x00'))

/-- `default_port_for_scheme`: src/util/net.c:110-124 -/
def portOf (scheme : Str) : Option Str :=
  if scheme = "http".toList then some "80".toList
  else if scheme = "https".toList then some "443".toList
  else if scheme = "git".toList then some "9418".toList
  else if scheme = "ssh".toList ∨ scheme = "ssh+git".toList ∨ scheme = "git+ssh".toList then some "22".toList
  else none

/-- `url_parse_finalize`: src/util/net.c:383-462 -/
def finalize (scheme : Str) (a : Auth) (hierarchical : Bool) (p : Str × Str × Str) : Url where
  scheme := detach (scheme.map lower)
  username := detach (decode 0 a.user)
  password := detach (decode 0 a.password)
  host := detach (decode 0 a.host)
  port := if a.port ≠ [] then detach a.port else if scheme ≠ [] then portOf (scheme.map lower) else none
  path := if p.1 ≠ [] then detach p.1 else if hierarchical then some ['/'] else none
  query := detach (decode 0 p.2.1)
  fragment := detach (decode 0 p.2.2)
  portSpecified := decide (a.port ≠ [])

/-- authority, path and the end of `git_net_url_parse`: src/util/net.c:554-569 -/
def parseRest (scheme auth path : Str) (hierarchical : Bool) : Option Url :=
  if auth = [] then some (finalize scheme ⟨[], [], [], []⟩ hierarchical (splitPath path))
  else
    match authority (isSsh scheme) .hostport auth.reverse [] ⟨[], [], [], []⟩ with
    | none => none
    | some a => some (finalize scheme a hierarchical (splitPath path))

/-- `git_net_url_parse`: src/util/net.c:464-570 -/
def parse (given : Str) : Option Url :=
  if given = [] then none
  else
    let scheme := given.takeWhile (fun c => decide (SchemeChar c))
    match given.drop scheme.length with
    | ':' :: r =>
      match r with
      | '/' :: '/' :: r' =>
        if scheme ≠ [] then
          let auth := r'.takeWhile (· ≠ '/')
          parseRest scheme auth (r'.drop auth.length) true
        else parseRest scheme [] r false
      | _ => parseRest scheme [] r false
    | _ => parseRest [] [] given false

/-- `git_net_url_is_default_port`; without a port it is not asked: src/util/net.c:997-1005 -/
def isDefaultPort (scheme port : Str) : Bool :=
  match portOf scheme with
  | none => false
  | some d => decide (port = d)

/-- user and password in `git_net_url_fmt`: src/util/net.c:1030-1039 -/
def fmtUser (u : Url) : Str :=
  match u.username with
  | none => []
  | some n =>
    match u.password with
    | none => n ++ ['@']
    | some p => n ++ ':' :: p ++ ['@']

/-- the port in `git_net_url_fmt`: src/util/net.c:1043-1046 -/
def fmtPort (u : Url) (scheme : Str) : Str :=
  match u.port with
  | none => []
  | some p => if isDefaultPort scheme p then [] else ':' :: p

/-- the query in `git_net_url_fmt`: src/util/net.c:1050-1053 -/
def fmtQuery (u : Url) : Str :=
  match u.query with
  | none => []
  | some q => '?' :: q

/-- `git_net_url_fmt`; `none` is the failure of an assertion: src/util/net.c:1021-1056 -/
def fmt (u : Url) : Option Str :=
  match u.scheme, u.host with
  | some s, some h => some (s ++ "://".toList ++ fmtUser u ++ h ++ fmtPort u s ++ (u.path.getD ['/']) ++ fmtQuery u)
  | _, _ => none

/-- the query of a service; an empty one is none: src/util/net.c:824-833 -/
def serviceQuery (two : Str) : Option Str :=
  let q := two.drop ((two.takeWhile (· ≠ '?')).length + 1)
  if q = [] then none else some q

/-- the path of the first url without the slashes at its end: src/util/net.c:835-838 -/
def stripEnd (p : Str) : Str := (p.reverse.dropWhile (· = '/')).reverse

/-- the path of the service without the slashes at its beginning: src/util/net.c:824-844 -/
def servicePath (two : Str) : Str := (two.takeWhile (· ≠ '?')).dropWhile (· = '/')

/-- `git_net_url_joinpath`; whether a port was specified is left as it was in `out`: src/util/net.c:813-881 -/
def joinpath (out one : Url) (two : Str) : Url where
  scheme := one.scheme
  username := one.username
  password := one.password
  host := one.host
  port := one.port
  path := some (stripEnd (one.path.getD []) ++ '/' :: servicePath two)
  query := serviceQuery two
  fragment := none
  portSpecified := out.portSpecified

end Verif.NetUrl
