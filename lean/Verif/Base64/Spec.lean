import Verif.Base
import Batteries.Data.List.Basic
/-! # base64 and base85, as the number systems they are

The digits are given by where they are in the ASCII ranges, not by tables. -/
namespace Verif.Base64.Spec

/-- the base64 digit of a number below 64: RFC 4648, table 1 -/
def digit64 (v : Nat) : UInt8 :=
  if v < 26 then UInt8.ofNat (65 + v) else if v < 52 then UInt8.ofNat (97 + (v - 26)) else if v < 62 then UInt8.ofNat (48 + (v - 52)) else if v = 62 then c!"+" else c!"/"

/-- the base85 digit of a number below 85: digits, capitals, small letters, then the punctuation of git's alphabet -/
def digit85 (v : Nat) : UInt8 :=
  if v < 10 then UInt8.ofNat (48 + v) else if v < 36 then UInt8.ofNat (65 + (v - 10)) else if v < 62 then UInt8.ofNat (97 + (v - 36))
  else (b!"!#$%&()*+-;<=>?@^_`{|}~").getD (v - 62) 0

/-- big-endian number of a list of digits -/
def num (base : Nat) (ds : List Nat) : Nat := ds.foldl (fun n d => n * base + d) 0

/-- the big-endian digits of a number: the last `k` of them -/
def toDigits (base : Nat) : Nat → Nat → List Nat
  | 0, _ => []
  | k + 1, n => toDigits base k (n / base) ++ [n % base]

def bytesNum (b : Bytes) : Nat := num 256 (b.map UInt8.toNat)

/-- base64: groups of three bytes are four digits; a last group of one or two bytes is filled with zero bits and `=` -/
def base64 : Bytes → Bytes
  | a :: b :: c :: rest => (toDigits 64 4 (bytesNum [a, b, c])).map digit64 ++ base64 rest
  | [a, b] => ((toDigits 64 4 (bytesNum [a, b, 0])).map digit64).take 3 ++ b!"="
  | [a] => ((toDigits 64 4 (bytesNum [a, 0, 0])).map digit64).take 2 ++ b!"=="
  | [] => []

/-- base85: groups of four bytes (the last filled with zero bytes) are five digits -/
inductive Base85 : Bytes → Bytes → Prop
  | nil : Base85 [] []
  | full (g rest t : Bytes) : g.length = 4 → Base85 rest t → Base85 (g ++ rest) ((toDigits 85 5 (bytesNum g)).map digit85 ++ t)
  | last (g : Bytes) : 0 < g.length → g.length < 4 → Base85 g ((toDigits 85 5 (bytesNum (g ++ List.replicate (4 - g.length) 0))).map digit85)

/-- the value of a text character of base64: of a digit its number, of the padding zero -/
def Char64 (c : UInt8) (v : Nat) : Prop := (v < 64 ∧ c = digit64 v) ∨ (c = c!"=" ∧ v = 0)
def Char85 (c : UInt8) (v : Nat) : Prop := v < 85 ∧ c = digit85 v

/-- what decoding base64 means: groups of four characters, each a digit or `=`, are three bytes -/
inductive Decodes64 : Bytes → Bytes → Prop
  | nil : Decodes64 [] []
  | group (w x y z : UInt8) (a b c d : Nat) (t out : Bytes) : Char64 w a → Char64 x b → Char64 y c → Char64 z d → Decodes64 t out →
      Decodes64 (w :: x :: y :: z :: t) ((toDigits 256 3 (num 64 [a, b, c, d])).map UInt8.ofNat ++ out)

/-- what decoding base85 to `n` bytes means: groups of five digits whose value fits 32 bits are four bytes; the last may be cut; what follows is not read -/
inductive Decodes85 : Bytes → Nat → Bytes → Prop
  | done (t : Bytes) : Decodes85 t 0 []
  | group (g : Bytes) (vs : List Nat) (t out : Bytes) (n : Nat) : g.length = 5 → List.Forall₂ Char85 g vs → num 85 vs < 2 ^ 32 → 0 < n → Decodes85 t (n - 4) out →
      Decodes85 (g ++ t) n (((toDigits 256 4 (num 85 vs)).map UInt8.ofNat).take n ++ out)

end Verif.Base64.Spec
