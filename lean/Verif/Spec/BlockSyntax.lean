import Verif.Model.Parser
import Verif.Spec.Attr
import Verif.Spec.Numbers
/-! # Specification: how blocks begin

What is written at the beginning of a line, after indentation, to begin each kind of block. -/
namespace Jotdown.Syntax
open Jotdown

/-- The first line of a text, with the newline that ends it. -/
def firstLine : Bytes → Bytes
  | [] => []
  | c :: s => if c = c! '\n' then [c] else c :: firstLine s

/-- Nothing, or whitespace and anything. -/
def Spaced (r : Bytes) : Prop := ∀ c, r.head? = some c → isWs c = true

/-- How a block begins. -/
inductive Opening
  | blank
  | thematicBreak
  | attributes
  | heading (level : Nat)
  | blockquote
  | linkDefinition (label : Bytes)
  | footnote (label : Bytes)
  | code (spec : Bytes)
  | div (cls : Bytes)
  | table
  | unordered (bullet : UInt8)
  | task (bullet : UInt8) (checked : Bool)
  | ordered (numbering : Numbering) (style : NumStyle) (value : Nat)
  | description
  deriving DecidableEq, Repr

/-- Characters of a line that is a thematic break. -/
def isMark (c : UInt8) : Bool := c == c! '-' || c == c! '*'

/-- A thematic break: at least three dashes and asterisks, in any order and with any whitespace between them. -/
def BreakLine (l : Bytes) : Prop := (∀ c ∈ l, isMark c = true ∨ isWs c = true) ∧ 3 ≤ (l.filter isMark).length

/-- One set of attributes, and whitespace: the line is accepted and nothing before its end is. -/
def AttrLine (l : Bytes) : Prop :=
  Attr.Accepts (trimEnd l) ∧
  ∀ k, 0 < k → k < (trimEnd l).length → ¬ Attr.Accepts (l.take k)

/-- Letters that are also roman digits are roman numerals, other letters stand alone. -/
def NumeralOk : Numbering → Bytes → Prop
  | .decimal, n => n.length ≤ 19
  | .romanLower, n | .romanUpper, n => n.length ≤ 13
  | .alphaLower, n => n.length = 1 ∧ ∀ c ∈ n, c ∉ b! "ivxlcdm"
  | .alphaUpper, n => n.length = 1 ∧ ∀ c ∈ n, c ∉ b! "IVXLCDM"

/-- The line, which is not indented, begins a block; the marker has `n` bytes. -/
inductive Marker : Bytes → Opening → Nat → Prop
  /-- An empty line. -/
  | empty : Marker [] .blank 0
  /-- An empty line. -/
  | newline : Marker (b! "\n") .blank 1
  /-- `#`s and a space. -/
  | heading {n r} : 1 ≤ n → Spaced r → Marker (List.replicate n (c! '#') ++ r) (.heading n) n
  /-- `>` and a space. -/
  | blockquote {r} : Spaced r → Marker (c! '>' :: r) .blockquote 1
  /-- A set of attributes. -/
  | attributes {r} : AttrLine (c! '{' :: r) → Marker (c! '{' :: r) .attributes (r.length + 1)
  /-- The line is in pipes, the last of which is not escaped. -/
  | table {r m} : trimEnd (c! '|' :: r) = c! '|' :: m ++ b! "|" → m.getLast? ≠ some (c! '\\') → Marker (c! '|' :: r) .table 0
  /-- `[label]:` -/
  | linkDefinition {label r} : c! ']' ∉ label → label.head? ≠ some (c! '^') →
      Marker (c! '[' :: label ++ b! "]:" ++ r) (.linkDefinition label) (label.length + 3)
  /-- `[^label]:` -/
  | footnote {label r} : c! ']' ∉ label → Marker (b! "[^" ++ label ++ b! "]:" ++ r) (.footnote label) (label.length + 4)
  /-- At least three dashes and asterisks. -/
  | thematicBreak {c r} : isMark c = true → BreakLine (c :: r) → Marker (c :: r) .thematicBreak (trimEnd (c :: r)).length
  /-- A bullet and a space. A bullet without a space is a list item only at the very end of the text. -/
  | unordered {b r} : b ∈ b! "-*+" → r = [] ∨ r.head? = some (c! ' ') → ¬ BreakLine (b :: r) →
      (∀ x s, r = b! " [" ++ x :: c! ']' :: s → x ∈ b! "xX " → ¬ Spaced s) → Marker (b :: r) (.unordered b) 1
  /-- A bullet, a space and a box. -/
  | task {b x s} : b ∈ b! "-*+" → x ∈ b! "xX " → Spaced s →
      Marker (b :: b! " [" ++ x :: c! ']' :: s) (.task b (x != c! ' ')) 5
  /-- `:` and a space. -/
  | description {r} : Spaced r → Marker (c! ':' :: r) .description 1
  /-- At least three colons and the name of a class, if any. -/
  | div {n r} : 3 ≤ n → r.head? ≠ some (c! ':') → (∀ c ∈ trim r, Attr.isName c = true) →
      Marker (List.replicate n (c! ':') ++ r) (.div (trim r)) (n + r.length)
  /-- At least three backticks or tildes and a word, if any. -/
  | code {n f r} : f = c! '`' ∨ f = c! '~' → 3 ≤ n → r.head? ≠ some f → (∀ c ∈ trim r, isWs c = false ∧ c ≠ c! '`') →
      Marker (List.replicate n f ++ r) (.code (trim r)) (n + r.length)
  /-- A numeral with punctuation, and a space. -/
  | ordered {numbering style n r} {v : Nat} : n ≠ [] → (∀ c ∈ n, Numbers.IsDigitOf numbering c) → NumeralOk numbering n →
      (v : Int) = Numbers.numeralValue numbering n → Spaced r →
      Marker (Numbers.marker style n ++ r) (.ordered numbering style v) (Numbers.marker style n).length

/-- A line without a marker: it begins a paragraph. -/
def Plain (l : Bytes) : Prop := ∀ o n, ¬ Marker l o n

/-- The line at `a`, which is not indented, begins a block; the marker ends at `b`. -/
def Begins (src : Bytes) (a b : Nat) (o : Opening) : Prop :=
  ∃ n, b = a + n ∧ Marker (firstLine (src.drop a)) o n

/-- The first item of a list of this kind: a list of letters may begin with a letter that is read as a roman numeral
in isolation. -/
inductive Starts : ListKind → Opening → Prop
  | unordered {b u} : b = (match u with | .dash => c! '-' | .star => c! '*' | .plus => c! '+') →
      Starts (.unordered u) (.unordered b)
  | task {b u c} : b = (match u with | .dash => c! '-' | .star => c! '*' | .plus => c! '+') → Starts (.task u) (.task b c)
  | ordered {n s v} : Starts (.ordered n s v) (.ordered n s v)
  | letter {n m s v w} : Numbers.LetterReading ⟨n, v⟩ ⟨m, w⟩ → Starts (.ordered m s w) (.ordered n s v)

/-- What the start of a block says about the text: the marker that ends where the range ends. -/
def StartOk (src : Bytes) (sp : Span) : Container → Prop
  | .heading level _ _ => ∃ a, sp.start ≤ a ∧ Begins src a sp.stop (.heading level)
  | .blockquote => ∃ a, sp.start ≤ a ∧ Begins src a sp.stop .blockquote
  | .div cls => ∃ a, sp.start ≤ a ∧ Begins src a sp.stop (.div cls)
  | .codeBlock lang => lang.head? ≠ some (c! '=') ∧ ∃ a, sp.start ≤ a ∧ Begins src a sp.stop (.code lang)
  | .rawBlock format => ∃ a, sp.start ≤ a ∧ Begins src a sp.stop (.code (c! '=' :: format))
  | .footnote label => ∃ a, sp.start ≤ a ∧ Begins src a sp.stop (.footnote label)
  | .linkDefinition label => ∃ a, sp.start ≤ a ∧ Begins src a sp.stop (.linkDefinition label)
  | .table => Begins src sp.stop sp.stop .table
  | .listItem => ∃ a, sp.start ≤ a ∧ ((∃ b, Begins src a sp.stop (.unordered b)) ∨ ∃ n s v, Begins src a sp.stop (.ordered n s v))
  | .taskListItem checked => ∃ a, sp.start ≤ a ∧ ∃ b, Begins src a sp.stop (.task b checked)
  | .descriptionTerm => ∃ a, sp.start ≤ a ∧ Begins src a sp.stop .description
  | .list kind _ => ∃ b o, Begins src sp.stop b o ∧ Starts kind o
  | .descriptionList => ∃ b, Begins src sp.stop b .description
  | .paragraph => ∃ c, src[sp.stop]? = some c ∧ isWs c = false ∧ Plain (firstLine (src.drop sp.stop))
  | _ => True

/-- What a block event says about the text. -/
def EventOk (src : Bytes) (sp : Span) : Event → Prop
  | .start c _ => StartOk src sp c
  | .thematicBreak _ => ∃ a, sp.start ≤ a ∧ Begins src a sp.stop .thematicBreak
  | .blankline => Begins src sp.start sp.stop .blank
  | _ => True

end Jotdown.Syntax
