import Verif.Base
/-! # The meaning of glob patterns

A pattern is read as a list of elements; each element stands for a set of strings; the pattern stands for their concatenations. -/
namespace Verif.Wildmatch.Spec

/-- How matching is done: is case ignored; are slashes special. -/
structure Mode where
  ignoreCase : Bool
  pathname : Bool

def lower (c : UInt8) : UInt8 := if c!"A" ≤ c ∧ c ≤ c!"Z" then c + 32 else c
def upper (c : UInt8) : UInt8 := if c!"a" ≤ c ∧ c ≤ c!"z" then c - 32 else c

/-- the byte of the text as it is compared -/
def seen (m : Mode) (c : UInt8) : UInt8 := if m.ignoreCase then lower c else c

/-- the character classes of POSIX, in the C locale -/
inductive Class where
  | alnum | alpha | blank | cntrl | digit | graph | lower | print | punct | space | upper | xdigit

def Class.ofName (s : Bytes) : Option Class :=
  if s = b!"alnum" then some .alnum else if s = b!"alpha" then some .alpha else if s = b!"blank" then some .blank
  else if s = b!"cntrl" then some .cntrl else if s = b!"digit" then some .digit else if s = b!"graph" then some .graph
  else if s = b!"lower" then some .lower else if s = b!"print" then some .print else if s = b!"punct" then some .punct
  else if s = b!"space" then some .space else if s = b!"upper" then some .upper else if s = b!"xdigit" then some .xdigit
  else none

/-- the members of a class; when case is ignored, "upper" also has the lower-case letters -/
def Class.Has (m : Mode) (k : Class) (c : UInt8) : Prop :=
  match k with
  | .alnum => c ∈ b!"0123456789ABCDEFGHIJKLMNOPQRSTUVWXYZabcdefghijklmnopqrstuvwxyz"
  | .alpha => c ∈ b!"ABCDEFGHIJKLMNOPQRSTUVWXYZabcdefghijklmnopqrstuvwxyz"
  | .blank => c ∈ b!" \t"
  | .cntrl => c < 32 ∨ c = 127
  | .digit => c ∈ b!"0123456789"
  | .graph => 32 < c ∧ c < 127
  | .lower => c ∈ b!"abcdefghijklmnopqrstuvwxyz"
  | .print => 32 ≤ c ∧ c < 127
  | .punct => c ∈ b!"!\"#$%&'()*+,-./:;<=>?@[\\]^_`{|}~"
  | .space => c ∈ [32, 9, 10, 11, 12, 13]
  | .upper => c ∈ b!"ABCDEFGHIJKLMNOPQRSTUVWXYZ" ∨ (m.ignoreCase = true ∧ c ∈ b!"abcdefghijklmnopqrstuvwxyz")
  | .xdigit => c ∈ b!"0123456789ABCDEFabcdef"

/-- the members of a bracket expression -/
inductive Item where
  | char (c : UInt8)
  | range (lo hi : UInt8)
  | cls (k : Class)

/-- the byte (as it is compared) belongs to the item; when case is ignored, a range also has the letters whose capitals are in it -/
def Item.Has (m : Mode) : Item → UInt8 → Prop
  | .char c, t => t = c
  | .range lo hi, t => (lo ≤ t ∧ t ≤ hi) ∨ (m.ignoreCase = true ∧ lo ≤ upper t ∧ upper t ≤ hi)
  | .cls k, t => k.Has m t

/-- what stands for exactly one byte -/
inductive One where
  /-- this byte -/
  | char (c : UInt8)
  /-- a question mark -/
  | any
  /-- a bracket expression -/
  | set (negated : Bool) (items : List Item)

/-- the byte `t` of the text is one of these; wildcards do not stand for a slash if slashes are special -/
def One.Has (m : Mode) : One → UInt8 → Prop
  | .char c, t => seen m t = c
  | .any, t => ¬ (m.pathname = true ∧ t = c!"/")
  | .set neg items, t => ¬ (m.pathname = true ∧ t = c!"/") ∧ ((∃ i ∈ items, i.Has m (seen m t)) ↔ neg = false)

/-- the elements of a pattern -/
inductive Elem where
  | one (o : One)
  /-- an asterisk that stands for any string without slashes -/
  | star
  /-- asterisks that stand for any string -/
  | anything
  /-- asterisks and a slash that stand for nothing or for any string that ends in a slash -/
  | dirs

/-- the strings a pattern stands for -/
def Lang (m : Mode) : List Elem → Bytes → Prop
  | [], t => t = []
  | .one o :: es, t => ∃ c t', t = c :: t' ∧ o.Has m c ∧ Lang m es t'
  | .star :: es, t => ∃ a t', t = a ++ t' ∧ c!"/" ∉ a ∧ Lang m es t'
  | .anything :: es, t => ∃ a t', t = a ++ t' ∧ Lang m es t'
  | .dirs :: es, t => Lang m es t ∨ ∃ a t', t = a ++ c!"/" :: t' ∧ Lang m es t'

/-! ## The syntax -/

/-- one member of a bracket expression, the byte that can begin a range if "-" comes next (0: none), and what is left.
`prev` is the byte that begins a range if this is a "-". -/
def readItem (prev : UInt8) (q : Bytes) : Option (Item × UInt8 × Bytes) :=
  match q with
  | [] => none
  | [92] => none
  | 92 :: l :: q => some (.char l, l, q)
  | 45 :: q1 =>
    if prev = 0 then some (.char 45, 45, q1)
    else
      match q1 with
      | [] => some (.char 45, 45, q1)
      | 93 :: _ => some (.char 45, 45, q1)
      | [92] => none
      | 92 :: hi :: q => some (.range prev hi, 0, q)
      | hi :: q => some (.range prev hi, 0, q)
  | 91 :: 58 :: s =>
    let w := s.takeWhile (· != c!"]")
    if s.length ≤ w.length then none
    else if w = [] ∨ w.getLast? ≠ some c!":" then some (.char 91, 91, 58 :: s)
    else (Class.ofName w.dropLast).map (fun k => (.cls k, 0, s.drop (w.length + 1)))
  | c :: q => some (.char c, c, q)

/-- the members of a bracket expression up to the closing bracket, which is a member if it comes first; `fuel` is larger than the length -/
def readItems : Nat → UInt8 → Bytes → Option (List Item × Bytes)
  | 0, _, _ => none
  | fuel + 1, prev, q =>
    match readItem prev q with
    | none => none
    | some (i, prev', q') =>
      if q'.head? = some c!"]" then some ([i], q'.tail)
      else (readItems fuel prev' q').map (fun (is, r) => (i :: is, r))

/-- a bracket expression, after the opening bracket -/
def readSet (q : Bytes) : Option (One × Bytes) :=
  let negated := q.head? = some c!"!" ∨ q.head? = some c!"^"
  let q := if negated then q.tail else q
  (readItems (q.length + 1) 0 q).map (fun (is, r) => (.set (decide negated) is, r))

/-- the asterisks at the beginning of a component: `double` tells whether there are several; `r` is what follows them.
If slashes are special, several asterisks mean more than one only as a whole component. -/
def readStars (m : Mode) (first double : Bool) (r : Bytes) : Elem × Bytes :=
  if !m.pathname then (.anything, r)
  else if first && double then
    match r with
    | [] => (.anything, [])
    | 47 :: r' => (.dirs, r')
    | 92 :: 47 :: r' => (.anything, 92 :: 47 :: r')
    | r => (.star, r)
  else (.star, r)

/-- The elements of a pattern; none if it is malformed. `first`: we are at the beginning of a component. `fuel` is larger than the length. -/
def readPat (m : Mode) : Nat → Bool → Bytes → Option (List Elem)
  | 0, _, _ => none
  | fuel + 1, first, p =>
    match p with
    | [] => some []
    | 92 :: p =>
      match p with
      | [] => none
      | l :: p => (readPat m fuel (l = c!"/") p).map (.one (.char l) :: ·)
    | 63 :: p => (readPat m fuel false p).map (.one .any :: ·)
    | 91 :: p =>
      match readSet p with
      | none => none
      | some (o, r) => (readPat m fuel false r).map (.one o :: ·)
    | 42 :: p =>
      let (e, r) := readStars m first (p.head? = some c!"*") (p.dropWhile (· == c!"*"))
      (readPat m fuel (match e with | .dirs => true | _ => false) r).map (e :: ·)
    | c :: p => (readPat m fuel (c = c!"/") p).map (.one (.char (seen m c)) :: ·)

/-- **The meaning of a pattern.** -/
def Matches (m : Mode) (pattern text : Bytes) : Prop := ∃ es, readPat m (pattern.length + 1) true pattern = some es ∧ Lang m es text

end Verif.Wildmatch.Spec
