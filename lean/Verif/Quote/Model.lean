import Verif.Strtol.Model
/-! # Quoting and escaping of strings: src/util/str.c, src/util/util.c

A `git_str` is the list of its bytes; the byte behind the last one is the terminating NUL. Memory allocation succeeds. A `char` is a
byte; the comparisons of a signed `char` are spelled out (`c < ' '` is also true of the bytes above 127). -/
namespace Verif.Quote

/-- a byte that makes `git_str_quote` quote: src/util/str.c:936-937 (a signed `char` above 127 is below `' '`) -/
def special (c : UInt8) : Bool := c = c!"\"" ∨ c = c!"\\" ∨ c < c!" " ∨ c > c!"~"

/-- the map `whitespace`: src/util/str.c:925 -/
def whitespace : Bytes := b!"abtnvfr"

/-- `"\\%03o"`: src/util/str.c:966 -/
def octal (c : UInt8) : Bytes := [c!"\\", c!"0" + c / 64, c!"0" + c / 8 % 8, c!"0" + c % 8]

/-- one turn of the second loop of `git_str_quote`: src/util/str.c:948-973 -/
def quoteByte (c : UInt8) : Bytes :=
  if 7 ≤ c ∧ c ≤ 13 then [c!"\\", whitespace.getD (c.toNat - 7) 0]
  else if c = c!"\"" ∨ c = c!"\\" then [c!"\\", c]
  else if c ≠ c!" " ∧ (c < c!"!" ∨ c > c!"~") then octal c
  else [c]

/-- the first loop of `git_str_quote`, which walks to the first byte that needs quoting: src/util/str.c:935-941. `none`: `quote` is
false at the end -/
def firstSpecial : Bytes → Option Nat
  | [] => none
  | c :: cs => if special c then some 0 else (firstSpecial cs).map (· + 1)

/-- `git_str_quote`: src/util/str.c:924-987 -/
def quote (b : Bytes) : Bytes :=
  match (if b.head? = some c!"!" then some 0 else firstSpecial b) with
  | none => b
  | some i => b!"\"" ++ b.take i ++ (b.drop i).flatMap quoteByte ++ b!"\""

/-- `git_str_rtrim`: src/util/str.c:869-880 -/
def rtrim (b : Bytes) : Bytes := b.take (size b.length)
where
  /-- the `while (buf->size > 0)` loop -/
  size : Nat → Nat
    | 0 => 0
    | n + 1 => match b[n]? with
      | some c => if Strtol.isSpace c then size n else n + 1
      | none => 0

/-- reading a byte of the buffer or its terminating NUL [no code: `s[i]`] -/
def at' (b : Bytes) (j : Nat) : Res UInt8 :=
  if j < b.length then .ok (b.getD j 0) else if j = b.length then .ok 0 else .ub

/-- the `switch` of `git_str_unquote` on the byte behind a backslash, without the digits: src/util/str.c:1011-1023 -/
def simple (ch : UInt8) : Option UInt8 :=
  if ch = c!"\"" ∨ ch = c!"\\" then some ch
  else if ch = c!"a" then some 7
  else if ch = c!"b" then some 8
  else if ch = c!"f" then some 12
  else if ch = c!"n" then some 10
  else if ch = c!"r" then some 13
  else if ch = c!"t" then some 9
  else if ch = c!"v" then some 11
  else none

/-- the loop of `git_str_unquote`: src/util/str.c:1000-1050. `out` is `buf->ptr[0..i]`: the buffer is overwritten in place, but only
below `j`, so that the bytes read are the original ones (`i < j` because `i` starts below `j` and grows by one in each turn). `fuel` bounds the
number of turns. -/
def unquoteLoop (b : Bytes) : Nat → Nat → Bytes → Res Bytes
  | 0, _, out => .ok out
  | fuel + 1, j, out =>
    if j < b.length - 1 then do
      let ch ← at' b j
      if ch = c!"\\" then
        if j = b.length - 2 then .err (-1)
        else
          let ch ← at' b (j + 1)
          match simple ch with
          | some c => unquoteLoop b fuel (j + 2) (out ++ [c])
          | none =>
            if ch = c!"0" ∨ ch = c!"1" ∨ ch = c!"2" ∨ ch = c!"3" then
              if j + 1 = b.length - 3 then .err (-1)
              else do
                let d ← at' b (j + 2)
                if d < c!"0" ∨ d > c!"7" then .err (-1)
                else do
                  let e ← at' b (j + 3)
                  if e < c!"0" ∨ e > c!"7" then .err (-1)
                  else unquoteLoop b fuel (j + 4) (out ++ [((ch - c!"0") <<< 6) ||| ((d - c!"0") <<< 3) ||| (e - c!"0")])
            else .err (-1)
      else unquoteLoop b fuel (j + 1) (out ++ [ch])
    else .ok out

/-- `git_str_unquote`: src/util/str.c:990-1062 -/
def unquote (b : Bytes) : Res Bytes :=
  let b := rtrim b
  if b.length < 2 ∨ b.head? ≠ some c!"\"" ∨ b.getLast? ≠ some c!"\"" then .err (-1)
  else unquoteLoop b b.length 1 []

/-- the first loop of `git_str_puts_escaped`, which computes the room needed: src/util/str.c:1074-1083. The string is a C string, given
without its NUL. `fuel` bounds the number of turns. -/
def escapedSize (esc escWith : Bytes) : Nat → Bytes → Nat → Nat
  | 0, _, total => total
  | fuel + 1, s, total =>
    if s = [] then total
    else
      let count := (s.takeWhile (fun c => !esc.contains c)).length
      let total := total + count
      let s := s.drop count
      let count := (s.takeWhile (fun c => esc.contains c)).length
      escapedSize esc escWith fuel (s.drop count) (total + count * (escWith.length + 1))

/-- the inner loop over a run of bytes to escape: src/util/str.c:1097-1105 -/
def escapeRun (escWith : Bytes) : Nat → Bytes → Bytes → Bytes × Bytes
  | 0, s, out => (s, out)
  | count + 1, s, out => escapeRun escWith count (s.drop 1) (out ++ escWith ++ s.take 1)

/-- the second loop of `git_str_puts_escaped`: src/util/str.c:1089-1106 -/
def escapeLoop (esc escWith : Bytes) : Nat → Bytes → Bytes → Bytes
  | 0, _, out => out
  | fuel + 1, s, out =>
    if s = [] then out
    else
      let count := (s.takeWhile (fun c => !esc.contains c)).length
      let out := out ++ s.take count
      let s := s.drop count
      let r := escapeRun escWith (s.takeWhile (fun c => esc.contains c)).length s out
      escapeLoop esc escWith fuel r.1 r.2

/-- `git_str_puts_escaped`: src/util/str.c:1064-1112; writing past the room asked for is undefined -/
def putsEscaped (buf s esc escWith : Bytes) : Res Bytes :=
  let total := escapedSize esc escWith (s.length + 1) s 0
  let out := escapeLoop esc escWith (s.length + 1) s buf
  if out.length ≤ buf.length + total then .ok out else .ub

/-- `git_str_puts_escape_regex`: src/util/str.h:283-286 -/
def putsEscapeRegex (buf s : Bytes) : Res Bytes := putsEscaped buf s b!"^.[]$()|*+?{}\\" b!"\\"

/-- `git__unescape` (`git_str_unescape`): src/util/util.c:655-674, src/util/str.c:1113-1116. `pos` never passes `scan`, so the bytes
read are the original ones; the result is the text up to the new NUL, whose length is returned. -/
def unescape : Bytes → Bytes
  | [] => []
  | c :: cs =>
    if c = c!"\\" then
      match cs with
      | [] => [c]
      | d :: ds => d :: unescape ds
    else c :: unescape cs

/-- `git__isxdigit`: src/util/ctype_compat.h:48-51, :66 -/
def isXdigit (c : UInt8) : Bool := (c!"0" ≤ c ∧ c ≤ c!"9") ∨ (c!"a" ≤ c ∧ c ≤ c!"f") ∨ (c!"A" ≤ c ∧ c ≤ c!"F")

/-- `HEX_DECODE`: src/util/str.c:472 -/
def hexDecode (c : UInt8) : Int := (Int.ofNat (c ||| 32).toNat) % 39 - 9

/-- `git_str_decode_percent`, the loop: src/util/str.c:485-497; `out` is the buffer, `s` the string from `str_pos` on, `fuel` bounds
the number of turns -/
def decodeLoop : Nat → Bytes → Bytes → Bytes
  | 0, _, out => out
  | fuel + 1, s, out =>
    match s with
    | [] => out
    | c :: rest =>
      if c = c!"%" ∧ s.length > 2 ∧ isXdigit (rest.getD 0 0) ∧ isXdigit (rest.getD 1 0) then
        decodeLoop fuel (rest.drop 2)
          (out ++ [UInt8.ofNat ((hexDecode (rest.getD 0 0) * 16 + hexDecode (rest.getD 1 0)) % 256).toNat])
      else decodeLoop fuel rest (out ++ [c])

/-- `git_str_decode_percent`: src/util/str.c:474-500 -/
def decodePercent (buf s : Bytes) : Bytes := decodeLoop s.length s buf

end Verif.Quote
