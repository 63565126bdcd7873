import Verif.NetHost.Spec
/-! # Model of the matching of host names and of redirects in `src/util/net.c`

Strings end at their NUL. The parser of urls is a parameter of redirects. The failure of memory allocation is not modelled. -/
namespace Verif.NetHost

/-- the loop over the host name at a star: what is left of it at the first character that, in lower case, is `c`, or at the first dot:
src/util/net.c:67-79 -/
def skipTo (c : Char) : Str → Option Str
  | [] => none
  | x :: xs => if lower x = c then some (x :: xs) else if lower x = '.' then some (x :: xs) else skipTo c xs

/-- `git_net_hostname_matches_cert`, the pattern first: src/util/net.c:45-87 -/
def matchesCert : Str → Str → Bool
  | [], host => host.isEmpty
  | p :: ps, host =>
    if lower p = '*' then
      match ps with
      | [] => true
      | c :: ps' =>
        match skipTo c host with
        | none => false
        | some host => matchesCert (c :: ps') host
    else
      match host with
      | [] => false
      | x :: xs => if lower p ≠ lower x then false else matchesCert ps xs

/-- `git__strlcmp(a, b, len) == 0` for a `b` of `len` characters: [src/util/util.h:161-165] -/
def strlcmpEq (a b : Str) : Bool := decide (a = b)

/-- where the domain of a pattern begins: src/util/net.c:1085-1092 -/
def wildcard (pat : Str) : Nat :=
  if 1 < pat.length ∧ pat[0]? = some '*' ∧ pat[1]? = some '.' then 2 else if pat[0]? = some '.' then 1 else 0

/-- `matches_pattern`, for a url with host and port: src/util/net.c:1070-1118 -/
def matchesPattern (host port pat : Str) : Bool :=
  if pat.length = 0 then false
  else if pat.length = 1 ∧ pat[0]? = some '*' then true
  else
    let w := wildcard pat
    let rest := pat.drop w
    let domain := rest.takeWhile (· ≠ ':')
    let prt := rest.drop (domain.length + 1)
    if prt.length ≠ 0 ∧ strlcmpEq port prt = false then false
    else if w = 0 then strlcmpEq host domain
    else if host.length < domain.length then false
    else if host.drop (host.length - domain.length) ≠ domain then false
    else if host.length = domain.length then true
    else decide (host[host.length - domain.length - 1]? = some '.')

/-- the loop of `git_net_url_matches_pattern_list`; `fuel` bounds its turns: src/util/net.c:1125-1142 -/
def matchesList (host port : Str) : Nat → Str → Bool
  | 0, _ => false
  | fuel + 1, list =>
    if list = [] then false
    else
      let pat := list.takeWhile (· ≠ ',')
      if matchesPattern host port pat then true
      else
        let after := list.drop pat.length
        if after = [] then false else matchesList host port fuel (after.drop 1)

/-- `git_net_url_matches_pattern_list`: src/util/net.c:1125-1142 -/
def matchesPatternList (host port list : Str) : Bool := matchesList host port (list.length + 1) list

/-- how a redirect ends: undefined behaviour, an error with the url as it is then, or success -/
inductive Res where
  | ub
  | error (u : Url)
  | ok (u : Url)
  deriving DecidableEq

/-- the path cut at `t`, or after one character: src/util/net.c:919-930 -/
def cut (u : Url) (p : Str) (t : Nat) : Res :=
  let t := if t = 0 then 1 else t
  if p.length < t then .ub else .ok { u with path := some (p.take t), query := none }

/-- the second look, for a path with the query in it: src/util/net.c:915-930, git__suffixcmp at [src/util/util.c:272-279] -/
def second (u : Url) (p s : Str) : Res :=
  if s.length ≤ p.length ∧ p.drop (p.length - s.length) = s then cut u p (p.length - s.length) else .ok u

/-- `remove_service_suffix`: src/util/net.c:889-931 -/
def removeServiceSuffix (u : Url) (s : Str) : Res :=
  match u.path with
  | none => .ub
  | some p =>
    let pre := s.takeWhile (· ≠ '?')
    if pre.length ≠ 0 ∧ pre.length ≤ p.length ∧ p.drop (p.length - pre.length) = pre then
      if pre.length = s.length then cut u p (p.length - pre.length)
      else
        match u.query with
        | none => .ub
        | some q => if q = s.drop (pre.length + 1) then cut u p (p.length - pre.length) else second u p s
    else second u p s

/-- the scheme of the new url will not do: src/util/net.c:959-967 -/
def schemeBad (u t : Url) : Option Bool :=
  match u.scheme, t.scheme with
  | none, _ => some false
  | some _, none => none
  | some a, some b => some (decide (a ≠ b ∧ b ≠ ['h', 't', 't', 'p', 's']))

/-- the host of the new url will not do: src/util/net.c:969-978 -/
def hostBad (u t : Url) (offsite : Bool) : Option Bool :=
  match u.host with
  | none => some false
  | some a => if offsite then some false else
    match t.host with
    | none => none
    | some b => some (decide (a.map lower ≠ b.map lower))

/-- the end of `git_net_url_apply_redirect`: src/util/net.c:983-989 -/
def finish (u : Url) (suffix : Option Str) : Res :=
  match suffix with
  | none => .ok u
  | some s => removeServiceSuffix u s

/-- the whole url replaced: src/util/net.c:952-981 -/
def replaceUrl (u t : Url) (offsite : Bool) (suffix : Option Str) : Res :=
  match schemeBad u t with
  | none => .ub
  | some true => .error u
  | some false =>
    match hostBad u t offsite with
    | none => .ub
    | some true => .error u
    | some false => finish t suffix

/-- `git_net_url_apply_redirect`; `parse` is `git_net_url_parse`, `none` its failure: src/util/net.c:933-990 -/
def applyRedirect (parse : Str → Option Url) (u : Url) (loc : Str) (offsite : Bool) (suffix : Option Str) : Res :=
  if loc[0]? = some '/' then finish { u with path := some loc } suffix
  else
    match parse loc with
    | none => .error u
    | some t => replaceUrl u t offsite suffix

end Verif.NetHost
