import Verif.Model.Basic
/-! # Model of the list marker numbers in src/lib.rs -/
namespace Jotdown
open Jotdown

/-- src/lib.rs:1931-1936 `Alignment` -/
inductive Alignment
  | unspecified | left | center | right
  deriving DecidableEq, Repr, Inhabited

/-- src/lib.rs:2027-2038 `OrderedListNumbering` -/
inductive Numbering
  | decimal | alphaLower | alphaUpper | romanLower | romanUpper
  deriving DecidableEq, Repr, Inhabited

/-- src/lib.rs:2042-2049 `OrderedListStyle` -/
inductive NumStyle
  | period | paren | parenParen
  deriving DecidableEq, Repr, Inhabited

/-- `u64::MAX + 1` (the type of src/block.rs:115) -/
def u64Bound : Nat := 2 ^ 64

/-- Result of a `u64` computation; panics on overflow. (arithmetic of src/lib.rs:2052-2102) -/
def u64 (n : Nat) : R Nat := if n < u64Bound then .ok n else .error .overflow

/-- `str::parse::<u64>().unwrap()` on a string of digits: an empty string, a non-digit (a leading
`+` is accepted by Rust but cannot occur in a marker and is rejected here) or an overflow is an error.
(used in src/lib.rs:2052-2060) -/
def parseDecimalLoop (acc : Nat) : Bytes → R Nat
  | [] => .ok acc
  | c :: cs =>
    if isDigit c then
      if acc * 10 + (c.toNat - 48) < u64Bound then parseDecimalLoop (acc * 10 + (c.toNat - 48)) cs
      else .error .unwrap
    else .error .unwrap

/-- src/lib.rs:2061-2074: sum of the weighted letters, least significant first; `w` is the weight
of the next letter. The weight is multiplied also after the last letter (`scan`). -/
def parseAlphaLoop (d0 : Nat) (w sum : Nat) : Bytes → R Nat
  | [] => .ok sum
  | c :: cs => do
    let w' ← u64 (w * 26)
    let d ← csub c.toNat d0
    let t ← u64 (w * (d + 1))
    let s ← u64 (sum + t)
    parseAlphaLoop d0 w' s cs

/-- src/lib.rs:2076-2087 `value` -/
def romanValue (d : UInt8) : R Nat :=
  if d = c! 'i' ∨ d = c! 'I' then .ok 1
  else if d = c! 'v' ∨ d = c! 'V' then .ok 5
  else if d = c! 'x' ∨ d = c! 'X' then .ok 10
  else if d = c! 'l' ∨ d = c! 'L' then .ok 50
  else if d = c! 'c' ∨ d = c! 'C' then .ok 100
  else if d = c! 'd' ∨ d = c! 'D' then .ok 500
  else if d = c! 'm' ∨ d = c! 'M' then .ok 1000
  else .error .panic

/-- src/lib.rs:2088-2099: loop over the reversed digits. -/
def parseRomanLoop (prev sum : Nat) : Bytes → R Nat
  | [] => .ok sum
  | d :: ds => do
    let v ← romanValue d
    let sum ← if v < prev then csub sum v else u64 (sum + v)
    parseRomanLoop v sum ds

/-- src/lib.rs:2052-2102 `parse_number` -/
def Numbering.parseNumber (k : Numbering) (n : Bytes) : R Nat :=
  match k with
  | .decimal => if n.isEmpty then .error .unwrap else parseDecimalLoop 0 n
  | .alphaLower => parseAlphaLoop 97 1 0 n.reverse
  | .alphaUpper => parseAlphaLoop 65 1 0 n.reverse
  | .romanLower | .romanUpper => parseRomanLoop 0 0 n.reverse

/-- src/lib.rs:2106-2108 `OrderedListStyle::number` -/
def NumStyle.number (s : NumStyle) (marker : Bytes) : R Bytes := do
  let e ← csub marker.length 1
  strSlice marker (if s = .parenParen then 1 else 0) e

end Jotdown
