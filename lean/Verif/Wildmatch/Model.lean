import Verif.Base
/-! # Glob matching: src/util/wildmatch.c

Pattern and text are the bytes before the terminating NUL.  A pointer into them is the list of the bytes from there on.  The `<ctype.h>`
functions are those of the C locale. -/
namespace Verif.Wildmatch

/-- WM_CASEFOLD, WM_PATHNAME: src/util/wildmatch.h:14-15. -/
structure Flags where
  casefold : Bool
  pathname : Bool
  deriving DecidableEq, Repr

/-- WM_MATCH, WM_NOMATCH, WM_ABORT_ALL, WM_ABORT_TO_STARSTAR: src/util/wildmatch.h:17-20. -/
inductive R where
  | ok | noMatch | abortAll | abortToStarStar
  deriving DecidableEq, Repr

/-- `is_glob_special`: src/util/wildmatch.c:42-58; the entries G of the table. -/
def isGlobSpecial (c : UInt8) : Bool := c = 42 || c = 63 || c = 91 || c = 92

/-- [ctype.h in the C locale, used at src/util/wildmatch.c:60-93, 105-300] -/
def isUpper (c : UInt8) : Bool := 65 ≤ c && c ≤ 90
/-- [ctype.h in the C locale, used at src/util/wildmatch.c:60-93, 105-300] -/
def isLower (c : UInt8) : Bool := 97 ≤ c && c ≤ 122
/-- [ctype.h in the C locale, used at src/util/wildmatch.c:60-93, 105-300] -/
def isDigit (c : UInt8) : Bool := 48 ≤ c && c ≤ 57
/-- [ctype.h in the C locale, used at src/util/wildmatch.c:60-93, 105-300] -/
def isAlpha (c : UInt8) : Bool := isUpper c || isLower c
/-- [ctype.h in the C locale, used at src/util/wildmatch.c:60-93, 105-300] -/
def isAlnum (c : UInt8) : Bool := isAlpha c || isDigit c
/-- [ctype.h in the C locale, used at src/util/wildmatch.c:60-93, 105-300] -/
def isBlank (c : UInt8) : Bool := c = 32 || c = 9
/-- [ctype.h in the C locale, used at src/util/wildmatch.c:60-93, 105-300] -/
def isCntrl (c : UInt8) : Bool := c < 32 || c = 127
/-- [ctype.h in the C locale, used at src/util/wildmatch.c:60-93, 105-300] -/
def isPrint (c : UInt8) : Bool := 32 ≤ c && c ≤ 126
/-- [ctype.h in the C locale, used at src/util/wildmatch.c:60-93, 105-300] -/
def isSpace (c : UInt8) : Bool := c = 32 || (9 ≤ c && c ≤ 13)
/-- [ctype.h in the C locale, used at src/util/wildmatch.c:60-93, 105-300] -/
def isGraph (c : UInt8) : Bool := isPrint c && !isSpace c
/-- [ctype.h in the C locale, used at src/util/wildmatch.c:60-93, 105-300] -/
def isPunct (c : UInt8) : Bool := isGraph c && !isAlnum c
/-- [ctype.h in the C locale, used at src/util/wildmatch.c:60-93, 105-300] -/
def isXdigit (c : UInt8) : Bool := isDigit c || (65 ≤ c && c ≤ 70) || (97 ≤ c && c ≤ 102)
/-- [ctype.h in the C locale, used at src/util/wildmatch.c:60-93, 105-300] -/
def toLower (c : UInt8) : UInt8 := if isUpper c then c + 32 else c
/-- [ctype.h in the C locale, used at src/util/wildmatch.c:60-93, 105-300] -/
def toUpper (c : UInt8) : UInt8 := if isLower c then c - 32 else c

/-- `if ((flags & WM_CASEFOLD) && ISUPPER(c)) c = tolower(c)`: src/util/wildmatch.c:111-114 -/
def fold (fl : Flags) (c : UInt8) : UInt8 := if fl.casefold && isUpper c then toLower c else c

/-- the chain of `CC_EQ`: src/util/wildmatch.c:262-303; `none`: malformed [:class:] string -/
def charClass (fl : Flags) (name : Bytes) (t : UInt8) : Option Bool :=
  if name = b!"alnum" then some (isAlnum t)
  else if name = b!"alpha" then some (isAlpha t)
  else if name = b!"blank" then some (isBlank t)
  else if name = b!"cntrl" then some (isCntrl t)
  else if name = b!"digit" then some (isDigit t)
  else if name = b!"graph" then some (isGraph t)
  else if name = b!"lower" then some (isLower t)
  else if name = b!"print" then some (isPrint t)
  else if name = b!"punct" then some (isPunct t)
  else if name = b!"space" then some (isSpace t)
  else if name = b!"upper" then some (isUpper t || (fl.casefold && isLower t))
  else if name = b!"xdigit" then some (isXdigit t)
  else none

/-- the range test: src/util/wildmatch.c:238-244 -/
def inRange (fl : Flags) (lo hi t : UInt8) : Bool :=
  if t ≤ hi && t ≥ lo then true
  else if fl.casefold && isLower t then toUpper t ≤ hi && toUpper t ≥ lo
  else false

/-- one round of the `do` loop over a bracket expression: src/util/wildmatch.c:219-307. `q` starts with `p_ch`.  The result is the new
`matched`, the new `prev_ch` and the place behind the last byte looked at; `none` is WM_ABORT_ALL. -/
def bracketStep (fl : Flags) (t prev : UInt8) (q : Bytes) (matched : Bool) : Option (Bool × UInt8 × Bytes) :=
  match q with
  | [] => none
  | pc :: q1 =>
    if pc = c!"\\" then
      match q1 with
      | [] => none
      | l :: q2 => some (matched || t = l, l, q2)
    else if pc = c!"-" && prev ≠ 0 && !q1.isEmpty && q1.head? ≠ some c!"]" then
      match q1 with
      | [] => none
      | d :: q2 =>
        if d = c!"\\" then
          match q2 with
          | [] => none
          | e :: q3 => some (matched || inRange fl prev e t, 0, q3)
        else some (matched || inRange fl prev d t, 0, q2)
    else if pc = c!"[" && q1.head? = some c!":" then
      let s := q1.tail
      let w := s.takeWhile (· != c!"]")
      if s.length ≤ w.length then none
      else if w = [] || w.getLast? ≠ some c!":" then some (matched || t = c!"[", c!"[", q1)
      else
        match charClass fl w.dropLast t with
        | none => none
        | some b => some (matched || b, 0, s.drop (w.length + 1))
    else some (matched || t = pc, pc, q1)

theorem bracketStep_lt {fl : Flags} {t prev : UInt8} {q : Bytes} {m m' : Bool} {prev' : UInt8} {q' : Bytes}
    (h : bracketStep fl t prev q m = some (m', prev', q')) : q'.length < q.length := by
  unfold bracketStep at h
  split at h
  · cases h
  split at h
  · split at h <;> cases h
    simp only [List.length_cons]; omega
  split at h
  · split at h
    · cases h
    split at h
    · split at h <;> cases h
      simp only [List.length_cons]; omega
    · cases h
      simp only [List.length_cons]; omega
  split at h
  · dsimp only at h
    split at h
    · cases h
    split at h
    · cases h; simp
    split at h <;> cases h
    simp only [List.length_drop, List.length_tail, List.length_cons]; omega
  · cases h; simp

/-- the `do` loop: src/util/wildmatch.c:219-307; the result is `matched` and the pattern after the closing bracket -/
def bracketLoop (fl : Flags) (t prev : UInt8) (q : Bytes) (matched : Bool) : Option (Bool × Bytes) :=
  match h : bracketStep fl t prev q matched with
  | none => none
  | some (m, prev', q') => if q'.head? = some c!"]" then some (m, q'.tail) else bracketLoop fl t prev' q' m
termination_by q.length
decreasing_by exact bracketStep_lt h

/-- the beginning of `case '['`: src/util/wildmatch.c:204-218 -/
def bracket (fl : Flags) (t : UInt8) (q : Bytes) : Option (Bool × Bool × Bytes) :=
  let negated := q.head? = some c!"!" || q.head? = some c!"^"
  (bracketLoop fl t 0 (if negated then q.tail else q) false).map (fun (m, r) => (m, negated, r))

theorem bracketLoop_lt {fl : Flags} {t prev : UInt8} {q : Bytes} {m m' : Bool} {r : Bytes}
    (h : bracketLoop fl t prev q m = some (m', r)) : r.length < q.length := by
  rw [bracketLoop] at h
  split at h
  · cases h
  rename_i hs
  have := bracketStep_lt hs
  split at h
  · cases h; simp only [List.length_tail]; omega
  · have := bracketLoop_lt h; omega
termination_by q.length
decreasing_by omega

theorem bracket_lt {fl : Flags} {t : UInt8} {q : Bytes} {m n : Bool} {r : Bytes} (h : bracket fl t q = some (m, n, r)) : r.length < q.length := by
  unfold bracket at h
  simp only [Option.map_eq_some_iff, Prod.mk.injEq] at h
  obtain ⟨⟨m', r'⟩, h1, _, _, h2⟩ := h
  have := bracketLoop_lt h1
  dsimp only at h2
  subst h2
  split at this
  · simp only [List.length_tail] at this; omega
  · exact this

/-- the inner loop that looks for the literal after an asterisk: src/util/wildmatch.c:179-186; returns `text`, whose first byte is `t_ch` -/
def skipTo (fl : Flags) (matchSlash : Bool) (pc : UInt8) : Bytes → Bytes
  | [] => []
  | t :: ts =>
    if !matchSlash && t = c!"/" then t :: ts
    else if fold fl t = pc then t :: ts
    else skipTo fl matchSlash pc ts

theorem skipTo_le (fl : Flags) (ms : Bool) (pc : UInt8) (text : Bytes) : (skipTo fl ms pc text).length ≤ text.length := by
  induction text with
  | nil => exact Nat.le_refl _
  | cons t ts ih =>
    unfold skipTo
    split
    · exact Nat.le_refl _
    split
    · exact Nat.le_refl _
    · exact Nat.le_trans ih (by simp)

/-- the start of a round of the loop after an asterisk: where it continues in the text: src/util/wildmatch.c:174-186 -/
def advance (fl : Flags) (matchSlash : Bool) (p text : Bytes) : Bytes :=
  if !isGlobSpecial (p.headD 0) then skipTo fl matchSlash (fold fl (p.headD 0)) text else text

theorem advance_le (fl : Flags) (ms : Bool) (p text : Bytes) : (advance fl ms p text).length ≤ text.length := by
  unfold advance
  split
  · exact skipTo_le _ _ _ _
  · exact Nat.le_refl _

/-- the loop after an asterisk: src/util/wildmatch.c:162-199. `f` matches the rest of the pattern, `p`, against a text. -/
def starLoop (fl : Flags) (matchSlash : Bool) (p : Bytes) (f : Bytes → R) (text : Bytes) : R :=
  match text with
  | [] => .abortAll
  | t :: ts =>
    match h : advance fl matchSlash p (t :: ts) with
    | [] => .noMatch
    | t' :: ts' =>
      if !isGlobSpecial (p.headD 0) && fold fl t' ≠ fold fl (p.headD 0) then .noMatch
      else
        match f (t' :: ts') with
        | .noMatch => if !matchSlash && t' = c!"/" then .abortToStarStar else starLoop fl matchSlash p f ts'
        | r => if !matchSlash || r ≠ .abortToStarStar then r else starLoop fl matchSlash p f ts'
termination_by text.length
decreasing_by
  all_goals
    have := advance_le fl matchSlash p (t :: ts)
    rw [h] at this
    simp only [List.length_cons] at this ⊢
    omega

/-- `match_slash`, and whether "**" followed by a slash may match nothing: src/util/wildmatch.c:127-155. `prev`: the asterisk is the first
byte of the pattern (of this call) or follows a slash; `p1` is what follows the first asterisk, `p2` what follows the last. -/
def matchSlash (fl : Flags) (prev : Bool) (p1 p2 : Bytes) : Bool :=
  if !fl.pathname then true
  else p1.head? = some c!"*" && prev && (p2 = [] || p2.head? = some c!"/" || (p2.head? = some c!"\\" && p2.tail.head? = some c!"/"))

theorem dropWhile_length_le {α : Type} (p : α → Bool) (l : List α) : (l.dropWhile p).length ≤ l.length :=
  (List.dropWhile_sublist p).length_le

/-- `dowild`: src/util/wildmatch.c:97-314. `prev` is `prev_p < pattern || *prev_p == '/'`, should an asterisk come next. -/
def dowild (fl : Flags) (prev : Bool) (p text : Bytes) : R :=
  match p with
  | [] => if text = [] then .ok else .noMatch
  | pc :: p1 =>
    if text = [] && pc ≠ c!"*" then .abortAll
    else
      let t := fold fl (text.headD 0)
      let c := fold fl pc
      if c = c!"\\" then
        match p1 with
        | [] => .noMatch
        | l :: p2 => if t ≠ l then .noMatch else dowild fl (l = c!"/") p2 text.tail
      else if c = c!"?" then
        if fl.pathname && t = c!"/" then .noMatch else dowild fl false p1 text.tail
      else if c = c!"*" then
        let p2 := p1.dropWhile (· == c!"*")
        let ms := matchSlash fl prev p1 p2
        if fl.pathname && ms && p2.head? = some c!"/" && dowild fl true p2.tail text = .ok then .ok
        else if p2 = [] then
          if !ms && text.contains c!"/" then .noMatch else .ok
        else if !ms && p2.head? = some c!"/" then
          if !text.contains c!"/" then .noMatch else dowild fl true p2.tail (text.dropWhile (· != c!"/")).tail
        else starLoop fl ms p2 (fun s => dowild fl true p2 s) text
      else if c = c!"[" then
        match h : bracket fl t p1 with
        | none => .abortAll
        | some (m, negated, r) => if m = negated || (fl.pathname && t = c!"/") then .noMatch else dowild fl false r text.tail
      else if t ≠ c then .noMatch else dowild fl (pc = c!"/") p1 text.tail
termination_by p.length
decreasing_by
  all_goals (try have hlt := bracket_lt h)
  all_goals (try have hd := dropWhile_length_le (fun x : UInt8 => x == c!"*") p1)
  all_goals (simp only [List.length_cons, List.length_tail]; omega)

/-- `wildmatch`: src/util/wildmatch.c:317-320. -/
def wildmatch (fl : Flags) (pattern text : Bytes) : R := dowild fl true pattern text

end Verif.Wildmatch
