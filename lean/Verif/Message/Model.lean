import Verif.Strtol.Model
/-! # Commit message clean-up: src/libgit2/message.c

The message is a C string, given as its bytes before the NUL. Memory allocation succeeds. -/
namespace Verif.Message

/-- `line_length_without_trailing_spaces`: src/libgit2/message.c:12-22; the line without its trailing white space -/
def rtrim (line : Bytes) : Bytes := line.take (len line.length)
where
  /-- the `while (len)` loop -/
  len : Nat → Nat
    | 0 => 0
    | n + 1 => match line[n]? with
      | some c => if Strtol.isSpace c then len n else n + 1
      | none => len n

/-- the line at the beginning of the text, with its newline: src/libgit2/message.c:39-45 -/
def lineLength (m : Bytes) : Nat :=
  if c!"\n" ∈ m then (m.takeWhile (· ≠ c!"\n")).length + 1 else m.length

/-- the loop of `git_message__prettify`: src/libgit2/message.c:38-62. `m` is the message from `i` on, `empties` is
`consecutive_empty_lines`, `out` is `message_out`; `fuel` bounds the number of lines. -/
def loop (strip : Bool) (cc : UInt8) : Nat → Bytes → Nat → Bytes → Bytes
  | 0, _, _, out => out
  | fuel + 1, m, empties, out =>
    if m = [] then out
    else
      let n := lineLength m
      if strip ∧ m.head? = some cc then loop strip cc fuel (m.drop n) empties out
      else
        let line := rtrim (m.take n)
        if line.length = 0 then loop strip cc fuel (m.drop n) (empties + 1) out
        else
          let out := if empties > 0 ∧ out.length > 0 then out ++ b!"\n" else out
          loop strip cc fuel (m.drop n) 0 (out ++ line ++ b!"\n")

/-- `git_message_prettify`: src/libgit2/message.c:26-75; each line is at least one byte long, so the fuel suffices -/
def prettify (m : Bytes) (strip : Bool) (cc : UInt8) : Bytes := loop strip cc (m.length + 1) m 0 []

end Verif.Message
