import Verif.Model.Block
import Verif.Spec.Utf8
/-! # Specifications for list numbering -/
namespace Jotdown.Numbers
open Jotdown Block

/-- Value of a roman digit, lower or upper case. -/
def romanDigit (c : UInt8) : Nat :=
  if c = c! 'i' ∨ c = c! 'I' then 1
  else if c = c! 'v' ∨ c = c! 'V' then 5
  else if c = c! 'x' ∨ c = c! 'X' then 10
  else if c = c! 'l' ∨ c = c! 'L' then 50
  else if c = c! 'c' ∨ c = c! 'C' then 100
  else if c = c! 'd' ∨ c = c! 'D' then 500
  else if c = c! 'm' ∨ c = c! 'M' then 1000
  else 0

/-- Value of a roman numeral: a digit counts negative if the digit to its right is larger. -/
def romanSum : List Nat → Int
  | [] => 0
  | [v] => v
  | v :: w :: r => (if v < w then -(v : Int) else v) + romanSum (w :: r)

/-- Position of a letter in the alphabet, from 1. -/
def letterPos (c : UInt8) : Nat := if isLower c then c.toNat - 96 else c.toNat - 64

/-- The characters a numeral may consist of. -/
def IsDigitOf : Numbering → UInt8 → Prop
  | .decimal, c => isDigit c = true
  | .alphaLower, c => isLower c = true
  | .alphaUpper, c => isUpper c = true
  | .romanLower, c => c ∈ b! "ivxlcdm"
  | .romanUpper, c => c ∈ b! "IVXLCDM"

/-- The value of a numeral. -/
def numeralValue : Numbering → Bytes → Int
  | .decimal, n => (n.foldl (fun acc c => 10 * acc + (c.toNat - 48)) 0 : Nat)
  | .alphaLower, n | .alphaUpper, n => (n.foldl (fun acc c => 26 * acc + letterPos c) 0 : Nat)
  | .romanLower, n | .romanUpper, n => romanSum (n.map romanDigit)

/-- A numeral with the punctuation of a list marker. -/
def marker : NumStyle → Bytes → Bytes
  | .period, n => n ++ b! "."
  | .paren, n => n ++ b! ")"
  | .parenParen, n => b! "(" ++ n ++ b! ")"

/-- Roman numeral for one decimal digit `d`, written with the digits for 1, 5 and 10. -/
def romanOf (one five ten : UInt8) (d : Nat) : Bytes :=
  if d = 9 then [one, ten]
  else if d = 4 then [one, five]
  else if 5 ≤ d then five :: List.replicate (d - 5) one
  else List.replicate d one

/-- The canonical roman numeral for `n` (thousands are repeated `m`s). -/
def romanLower (n : Nat) : Bytes :=
  List.replicate (n / 1000) (c! 'm')
  ++ romanOf (c! 'c') (c! 'd') (c! 'm') (n / 100 % 10)
  ++ romanOf (c! 'x') (c! 'l') (c! 'c') (n / 10 % 10)
  ++ romanOf (c! 'i') (c! 'v') (c! 'x') (n % 10)

/-- The canonical roman numeral for `n` in upper case. -/
def romanUpper (n : Nat) : Bytes := (romanLower n).map (· - 32)

/-- A roman number whose value is that of a single digit `d`, read as the letter `d`. -/
def LetterReading (n m : ListNumber) : Prop :=
  ∃ d ∈ b! "ivxlcdm", n.value = romanDigit d ∧ m.value = letterPos d ∧
    ((n.numbering = .romanLower ∧ m.numbering = .alphaLower) ∨
     (n.numbering = .romanUpper ∧ m.numbering = .alphaUpper))

/-- `m` is the next number after `n`. -/
def Consecutive (n m : ListNumber) : Prop := m.numbering = n.numbering ∧ m.value = n.value + 1

end Jotdown.Numbers
