/-! # Host names, patterns and redirects: specification -/
namespace Verif.NetHost

/-- a string of C: its characters without the NUL that ends it; a character stands for a byte -/
abbrev Str := List Char

/-- a letter of ASCII in lower case, everything else as it is -/
def lower (c : Char) : Char := if 65 ≤ c.toNat ∧ c.toNat ≤ 90 then Char.ofNat (c.toNat + 32) else c

/-- the same but for the case of ASCII letters -/
def SameName (a b : Str) : Prop := a.map lower = b.map lower

/-- no dot in it -/
def Label (l : Str) : Prop := '.' ∉ l

/-- what a pattern of a certificate may stand for: a star at the end for anything, a star elsewhere for something without a dot, everything else
for itself in any case -/
inductive Stands : Str → Str → Prop where
  | nil : Stands [] []
  | last (h : Str) : Stands ['*'] h
  | star (l ps h : Str) : Label l → ps ≠ [] → Stands ps h → Stands ('*' :: ps) (l ++ h)
  | char (p c : Char) (ps h : Str) : p ≠ '*' → lower p = lower c → Stands ps h → Stands (p :: ps) (c :: h)

/-- one pattern of `no_proxy`, for a url with this host and this port: `*` is for every host; `domain` for that host, `.domain` and `*.domain` for it
and for what ends in it after a dot; with `:port` only for that port -/
def Pattern (host port pat : Str) : Prop :=
  pat = ['*'] ∨ (pat ≠ [] ∧ ∃ pre dom prt, pat = pre ++ dom ++ prt ∧ ':' ∉ dom ∧ (prt = [] ∨ prt = [':'] ∨ prt = ':' :: port) ∧
    ((pre = [] ∧ ¬ ['.'] <+: pat ∧ ¬ ['*', '.'] <+: pat ∧ host = dom) ∨
     ((pre = ['.'] ∨ pre = ['*', '.']) ∧ (host = dom ∨ ∃ l, host = l ++ '.' :: dom))))

/-- `p` is one of the pieces between the commas of `s` -/
def Piece (s p : Str) : Prop :=
  ',' ∉ p ∧ ∃ a b, s = a ++ p ++ b ∧ (a = [] ∨ [','] <:+ a) ∧ (b = [] ∨ [','] <+: b)

/-- a url; `none` is NULL -/
structure Url where
  scheme : Option Str
  username : Option Str
  password : Option Str
  host : Option Str
  port : Option Str
  path : Option Str
  query : Option Str
  fragment : Option Str
  portSpecified : Bool
  deriving DecidableEq

/-- what is to become of path and query when the path of a service is to be taken off: the service is `s`, or `pre` and `q` around its first question
mark. If the path ends in `pre` and the query is `q`, or the path ends in all of `s`, what is before is kept, but one character at least, and no
query; otherwise both are kept -/
def Strip (s P : Str) (Q : Option Str) (P' : Str) (Q' : Option Str) : Prop :=
  (∃ b e, P = b ++ e ∧ P' = (if b = [] then P.take 1 else b) ∧ Q' = none ∧
    (e = s ∨ (e ≠ [] ∧ ∃ q, s = e ++ '?' :: q ∧ '?' ∉ e ∧ Q = some q))) ∨
  (¬ s <:+ P ∧ (∀ e q, e ≠ [] → s = e ++ '?' :: q → '?' ∉ e → e <:+ P → Q ≠ some q) ∧ P' = P ∧ Q' = Q)

end Verif.NetHost
