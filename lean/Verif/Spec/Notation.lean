import Verif.Model.Attr
/-! # How inline elements are written -/
namespace Jotdown.Notation
open Jotdown

/-- A run of `n` backticks. -/
def ticks (n : Nat) : Bytes := List.replicate n (c! '`')

/-- `s` is nothing, or attributes in braces that mean `a`. What attributes spread over several lines mean is not said
here, as the lines of an enclosing container have markers in between. -/
def WrittenAttrs (s : Bytes) (a : Attr.Attributes) : Prop :=
  (s = [] ∧ a = []) ∨
  (s.head? = some (c! '{') ∧ s.getLast? = some (c! '}') ∧ (c! '\n' ∉ s → Attr.tryFrom s = .ok (.ok a)))

/-- The delimiter `d` on both sides, possibly with braces. -/
def Around (d : UInt8) (a b : Bytes) : Prop := (a = [d] ∧ b = [d]) ∨ (a = [c! '{', d] ∧ b = [d, c! '}'])

/-- The delimiter `d` on both sides with braces. -/
def Braced (d : UInt8) (a b : Bytes) : Prop := a = [c! '{', d] ∧ b = [d, c! '}']

/-- The start of bracketed text; the caret of a failed footnote reference belongs to it. -/
def Bracket (a : Bytes) : Prop := a = b! "[" ∨ a = b! "[^"

/-- The first line of `t` has no run of exactly `n` backticks. -/
def NoRun (n : Nat) (t : Bytes) : Prop :=
  ∀ u w, t = u ++ ticks n ++ w → c! '\n' ∉ u → u.getLast? ≠ some (c! '`') → w.head? ≠ some (c! '`') → False

/-- Verbatim text `t` between runs of `n` backticks. -/
def Inside (n : Nat) (t : Bytes) : Prop := NoRun n t ∧ (c! '\n' ∉ t → t.getLast? ≠ some (c! '`'))

/-- Backticks on both sides of `t`, after `pre`; at the end of a block they may be missing. -/
def Ticked (pre a t b : Bytes) : Prop :=
  ∃ n, 0 < n ∧ a = pre ++ ticks n ∧ ((b = ticks n ∧ Inside n t) ∨ (b = [] ∧ NoRun n t))

/-- An address between angle brackets: it has a colon or an at sign, and neither whitespace nor angle brackets. -/
def Address (t : Bytes) : Prop := (c! ':' ∈ t ∨ c! '@' ∈ t) ∧ ∀ c ∈ t, isWs c = false ∧ c ≠ c! '<' ∧ c ≠ c! '>'

/-- The name of a symbol: letters, digits, hyphens, plus signs and underscores. -/
def SymbolName (s : Bytes) : Prop := ∀ c ∈ s, isAlnum c = true ∨ c = c! '-' ∨ c = c! '+' ∨ c = c! '_'

/-- The label of a footnote reference: on one line and without brackets. -/
def NoteLabel (s : Bytes) : Prop := ∀ c ∈ s, c ≠ c! '[' ∧ c ≠ c! ']' ∧ c ≠ c! '\n'

/-- The name of a raw format: not empty, without whitespace and braces. -/
def FormatName (s : Bytes) : Prop := s ≠ [] ∧ ∀ c ∈ s, isWs c = false ∧ c ≠ c! '{' ∧ c ≠ c! '}'

/-- Backticks on both sides of `t` followed by a format. -/
def RawTicked (f a t b : Bytes) : Prop :=
  ∃ n pre, 0 < n ∧ (pre = [] ∨ pre = b! "$" ∨ pre = b! "$$") ∧ a = pre ++ ticks n ∧ b = ticks n ++ b! "{=" ++ f ++ b! "}" ∧ Inside n t ∧ FormatName f

/-- `}{` occurs in the source, as between two attribute sets. -/
def Adjacent (src : Bytes) : Prop := b! "}{" <:+: src

/-- `u` is put together from pieces of `s`, in order, with `sep` between them. -/
def Joined (sep s u : Bytes) : Prop := ∃ parts : List Bytes, u = sep.intercalate parts ∧ parts.flatten.Sublist s

/-- The end of a link to `u` written between `l` and `r`; a destination on several lines is put together from its lines. -/
def Target (src l r : Bytes) (b u : Bytes) : Prop :=
  ∃ s, b = l ++ s ++ r ∧ (c! '\n' ∉ s → ¬ Adjacent src → u = s) ∧ (c! '{' ∉ s → Joined [] s u)

/-- The end of a link with the label `u`; an empty label stands for the text `w` of the link, and the lines
of a label on several lines are joined by spaces. -/
def Label (src : Bytes) (w b u : Bytes) : Prop :=
  ∃ s, b = b! "][" ++ s ++ b! "]" ∧ (s ≠ [] → c! '\n' ∉ s → ¬ Adjacent src → u = s) ∧
    (s ≠ [] → c! '{' ∉ s → Joined (b! " ") s u) ∧ (s = [] → u = w)

end Jotdown.Notation
