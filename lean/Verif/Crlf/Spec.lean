import Verif.Base
/-! # Line endings -/
namespace Verif.Crlf.Spec

/-- without the carriage returns that stand directly before a newline -/
def toLf : Bytes → Bytes
  | [] => []
  | c :: cs => if c = c!"\r" ∧ cs.head? = some c!"\n" then toLf cs else c :: toLf cs

/-- with a carriage return before every newline that has none; `prev` is the byte before -/
def toCrlfFrom (prev : Option UInt8) : Bytes → Bytes
  | [] => []
  | c :: cs => if c = c!"\n" ∧ prev ≠ some c!"\r" then c!"\r" :: c :: toCrlfFrom (some c) cs else c :: toCrlfFrom (some c) cs

def toCrlf (b : Bytes) : Bytes := toCrlfFrom none b

/-- the number of CRLF line ends -/
def pairs : Bytes → Nat
  | [] => 0
  | c :: cs => (if c = c!"\r" ∧ cs.head? = some c!"\n" then 1 else 0) + pairs cs

/-- every newline has a carriage return before it -/
def AllCrlf (b : Bytes) : Prop := pairs b = b.count c!"\n"
instance (b : Bytes) : Decidable (AllCrlf b) := by unfold AllCrlf; infer_instance

/-- no CR CR LF -/
def NoDouble (b : Bytes) : Prop := ∀ x y, b ≠ x ++ b!"\r\r\n" ++ y

/-- no carriage return except before newlines -/
def NoBareCr (b : Bytes) : Prop := pairs b = b.count c!"\r"
instance (b : Bytes) : Decidable (NoBareCr b) := by unfold NoBareCr; infer_instance

/-- control characters that do not occur in text -/
def Odd (c : UInt8) : Bool := (c < 0x20 && c != 8 && c != 9 && c != 10 && c != 11 && c != 12 && c != 13 && c != 0x1b) || c == 0x7f

/-- what is taken for binary: a NUL, a bare CR, or more than one control character in 128; a Ctrl-Z at the end does not count -/
def Binary (b : Bytes) : Prop :=
  ¬ NoBareCr b ∨ (0 : UInt8) ∈ b ∨
    (b.countP fun c => !(Odd c) && c != 10 && c != 13) / 128 < b.countP Odd - (if b.getLast? = some 0x1a then 1 else 0)
instance (b : Bytes) : Decidable (Binary b) := by unfold Binary; infer_instance

end Verif.Crlf.Spec
