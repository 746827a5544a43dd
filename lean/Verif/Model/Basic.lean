/-!
# Basics shared by all parts of the model

Rust `&str`, `String`, `&[u8]` and `Cow<str>` are modelled by their UTF-8 bytes.
-/
namespace Jotdown

/-- Model of `&str` / `String` / `&[u8]` (src/lib.rs:68 `CowStr`): the list of UTF-8 bytes. -/
abbrev Bytes := List UInt8

/-- Byte string literal `b! "abc"`, expanded to a literal list of bytes. -/
syntax:max "b!" str : term
open Lean in
macro_rules
  | `(b! $s:str) => do
    let elems : Array (TSyntax `term) :=
      (s.getString.toUTF8.toList.map fun b => (quote b.toNat : TSyntax `term)).toArray
    `(([$elems,*] : List UInt8))

/-- Byte literal `c! 'x'` (Rust `b'x'`). -/
syntax:max "c!" char : term
open Lean in
macro_rules
  | `(c! $c:char) => do
    let n : TSyntax `term := quote c.getChar.toNat
    `(($n : UInt8))

/-- All ways the Rust code can panic. `level` and `depth` are the two `try_into().unwrap()`
conversions to `u16` (src/block.rs:428, 629); `fuel` is not a Rust panic but marks an exhausted
loop bound of the model. -/
inductive Panic
  | index      -- slice / Vec index out of bounds
  | slice      -- range slicing out of bounds or not on a char boundary
  | unwrap     -- `unwrap` / `expect` on None / Err
  | overflow   -- integer overflow / underflow (debug builds)
  | assert     -- failed `debug_assert!`
  | panic      -- explicit `panic!()` / `unreachable!()`
  | level      -- heading level does not fit in u16
  | depth      -- container depth does not fit in u16
  | fuel       -- loop bound of the model exhausted
  deriving DecidableEq, Repr, Inhabited

/-- Result of a computation that may panic.
(panics: indexing, slicing, `unwrap`, `expect`, `panic!`, `debug_assert!` in src/*.rs, e.g. src/block.rs:278, 428) -/
abbrev R (α : Type) := Except Panic α

/-- A `std::ops::Range<usize>`. (src/block.rs:22, src/inline.rs:75) -/
structure Span where
  start : Nat
  stop : Nat
  deriving DecidableEq, Repr, Inhabited

/-- `Range::is_empty`: `!(start < end)`. (used at src/block.rs:517, 574, src/lib.rs:2780) -/
def Span.isEmpty (s : Span) : Bool := !(decide (s.start < s.stop))

/-- `ExactSizeIterator::len` of a range: `end - start`, 0 if negative.
(used at src/inline.rs:378, 909) -/
def Span.len (s : Span) : Nat := s.stop - s.start

/-- `u8::is_ascii_whitespace` / `char::is_ascii_whitespace` (std): space, tab, LF, FF, CR.
(used at src/block.rs:499, src/inline.rs:715, src/lex.rs:156-266) -/
def isWs (c : UInt8) : Bool := c == 32 || c == 9 || c == 10 || c == 12 || c == 13

/-- `is_ascii_punctuation` (std): `!..=/`, `:..=@`, `[..=\``, `{..=~`.
(used at src/lex.rs:186, src/lib.rs:2281) -/
def isPunct (c : UInt8) : Bool :=
  (33 ≤ c && c ≤ 47) || (58 ≤ c && c ≤ 64) || (91 ≤ c && c ≤ 96) || (123 ≤ c && c ≤ 126)

/-- `is_ascii_digit` (std). (used at src/block.rs:1145, 1171) -/
def isDigit (c : UInt8) : Bool := 48 ≤ c && c ≤ 57
/-- `is_ascii_lowercase` (std). (used at src/block.rs:1152, 1172) -/
def isLower (c : UInt8) : Bool := 97 ≤ c && c ≤ 122
/-- `is_ascii_uppercase` (std). (used at src/block.rs:1154, 1173) -/
def isUpper (c : UInt8) : Bool := 65 ≤ c && c ≤ 90
/-- `is_ascii_alphanumeric` (std). (used at src/inline.rs:630, src/attr.rs:866-868) -/
def isAlnum (c : UInt8) : Bool := isDigit c || isLower c || isUpper c

/-- UTF-8 continuation byte: `(b as i8) < -0x40`, i.e. 0x80..=0xBF.
(what slicing of `str` checks, e.g. src/block.rs:290, 580) -/
def isCont (c : UInt8) : Bool := 128 ≤ c && c ≤ 191

/-- `str::is_char_boundary` (std): 0, len, or a position whose byte is not a continuation byte.
(what slicing of `str` checks, e.g. src/block.rs:293, 884) -/
def isBoundary (s : Bytes) (i : Nat) : Bool :=
  i == 0 || (match s[i]? with
    | some c => !isCont c
    | none => i == s.length)

/-- `&s[a..b]` on bytes; panics if out of range.
(used at src/block.rs:344, 497, src/inline.rs:349) -/
def byteSlice (s : Bytes) (a b : Nat) : R Bytes :=
  if a ≤ b ∧ b ≤ s.length then .ok ((s.drop a).take (b - a)) else .error .slice

/-- `&s[a..b]` on `str`: additionally panics if not on char boundaries.
(used at src/block.rs:293, 590, 884, 890, src/lib.rs:2207, 2603) -/
def strSlice (s : Bytes) (a b : Nat) : R Bytes :=
  if a ≤ b ∧ b ≤ s.length ∧ isBoundary s a ∧ isBoundary s b
  then .ok ((s.drop a).take (b - a)) else .error .slice

/-- Checked subtraction (debug builds panic on underflow).
(used at src/block.rs:306, 331, src/inline.rs:440, 549) -/
def csub (a b : Nat) : R Nat := if b ≤ a then .ok (a - b) else .error .overflow

/-- Vec / slice indexing. (used at src/block.rs:277, 869, src/inline.rs:318, 698) -/
def idx {α : Type} (l : List α) (i : Nat) : R α :=
  match l[i]? with
  | some a => .ok a
  | none => .error .index

/-- `debug_assert!`. (used at src/block.rs:378, 698, src/inline.rs:321, 454) -/
def dassert (b : Bool) : R Unit := if b then .ok () else .error .assert

/-- `str::trim_start_matches(|c| c.is_ascii_whitespace())`. (used at src/block.rs:884, 971) -/
def trimStart (s : Bytes) : Bytes := s.dropWhile isWs
/-- `str::trim_end_matches(|c| c.is_ascii_whitespace())`. (used at src/block.rs:890, 973) -/
def trimEnd (s : Bytes) : Bytes := (s.reverse.dropWhile isWs).reverse
/-- `str::trim_matches(|c| c.is_ascii_whitespace())`. (used at src/block.rs:312, 591, 1258) -/
def trim (s : Bytes) : Bytes := trimEnd (trimStart s)

end Jotdown
