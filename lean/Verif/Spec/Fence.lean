import Verif.Model.Basic
/-! # Specification of fenced code blocks -/
namespace Jotdown.Block
open Jotdown

/-- Whitespace within a line. -/
def isInnerWs (c : UInt8) : Bool := isWs c && c != c! '\n'

/-- A line closes a code block opened by `n` fence characters `c`: apart from whitespace around it, it
consists of at least `n` of them. -/
def closesFence (c : UInt8) (n : Nat) (line : Bytes) : Bool :=
  let l := line.dropWhile isInnerWs
  decide (n ≤ (l.takeWhile (· == c)).length) && (l.dropWhile (· == c)).all isWs

/-- A line that opens a code block: indentation, at least three fence characters, and a language or
format name without whitespace or backtick, with whitespace around it. -/
structure OpensFence (c : UInt8) (indent n : Nat) (spec : Bytes) (line : Bytes) : Prop where
  fence : c = c! '`' ∨ c = c! '~'
  len : 3 ≤ n
  parts : ∃ ws mid tail, line = ws ++ (List.replicate n c ++ (mid ++ (spec ++ tail))) ∧ ws.length = indent ∧
    (∀ b ∈ ws, isInnerWs b = true) ∧ (∀ b ∈ mid, isWs b = true) ∧ (∀ b ∈ tail, isWs b = true) ∧
    (mid = [] → spec.head? ≠ some c)
  name : ∀ b ∈ spec, isWs b = false ∧ b ≠ c! '`'

/-- The number of content lines of a code block whose opening line is followed by `ls`, and whether a
closing fence follows them. -/
def codeContent (c : UInt8) (n : Nat) : List Bytes → Nat × Bool
  | [] => (0, false)
  | l :: ls => if closesFence c n l then (0, true) else ((codeContent c n ls).1 + 1, (codeContent c n ls).2)

/-- Remove at most `indent` whitespace characters at the start of a line. -/
def dedent : Nat → Bytes → Bytes
  | 0, l => l
  | _, [] => []
  | n + 1, b :: l => if isInnerWs b then dedent n l else b :: l

/-- The text of a code block with the given content lines. If the language is a raw format (`=..`), the
whitespace at the end of the last line is not part of the text. -/
def codeText (indent : Nat) (spec : Bytes) (content : List Bytes) : List Bytes :=
  let ls := content.map (dedent indent)
  let ls := if spec.head? = some (c! '=') then
      (match ls.getLast? with
        | some l => ls.dropLast ++ [trimEnd l]
        | none => [])
    else ls
  ls.filter (fun l => !l.isEmpty)

/-- The text at a range of the source. -/
def textAt (src : Bytes) (sp : Span) : Bytes := (src.drop sp.start).take (sp.stop - sp.start)

end Jotdown.Block
