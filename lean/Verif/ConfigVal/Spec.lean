import Verif.Strtol.Spec
/-! # What a number and a truth value in a configuration file are -/
namespace Verif.ConfigVal.Spec
open Strtol.Spec

/-- what a suffix stands for -/
inductive Suffix : Bytes → Int → Prop
  | none : Suffix [] 1
  | k : Suffix b!"k" 1024
  | K : Suffix b!"K" 1024
  | m : Suffix b!"m" (1024 * 1024)
  | M : Suffix b!"M" (1024 * 1024)
  | g : Suffix b!"g" (1024 * 1024 * 1024)
  | G : Suffix b!"G" (1024 * 1024 * 1024)

/-- the text is a number (white space, sign, decimal, `0x` hexadecimal or `0` octal digits) and possibly a suffix, of value `v` -/
def Scaled (s : Bytes) (v : Int) : Prop := ∃ n rest f, Number s 0 n rest ∧ Suffix rest f ∧ v = n * f

def Fits64 (v : Int) : Prop := -(2 ^ 63) ≤ v ∧ v < 2 ^ 63
def Fits32 (v : Int) : Prop := -(2 ^ 31) ≤ v ∧ v < 2 ^ 31

/-- `a` is the word `w` but for the case of letters (`w` in lower case) -/
def Word (a w : Bytes) : Prop := a.length = w.length ∧ ∀ (i : Nat) (x y : UInt8), a[i]? = some x → w[i]? = some y → x = y ∨ (c!"a" ≤ y ∧ y ≤ c!"z" ∧ x + 32 = y)

/-- the documented words of truth -/
def Yes : Option Bytes → Prop
  | none => True
  | some v => Word v b!"true" ∨ Word v b!"yes" ∨ Word v b!"on"

def No : Option Bytes → Prop
  | none => False
  | some v => Word v b!"false" ∨ Word v b!"no" ∨ Word v b!"off" ∨ v = []

end Verif.ConfigVal.Spec
