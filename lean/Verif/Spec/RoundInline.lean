import Verif.Model.Parser
import Verif.Spec.Notation
/-! # Specification: writing inline content and the events it must give back

A tree of inline content, how it is written in djot, and the events a parser must report for what was written. -/
namespace Jotdown.Round
open Jotdown Jotdown.Notation

/-- Elements written between delimiters, and quotations. -/
inductive Mark
  | emphasis | strong | superscript | subscript | highlight | insert | delete | single | double
  deriving DecidableEq, Repr, Inhabited

/-- The delimiter of an element. -/
def Mark.ch : Mark → UInt8
  | .emphasis => c! '_'
  | .strong => c! '*'
  | .superscript => c! '^'
  | .subscript => c! '~'
  | .highlight => c! '='
  | .insert => c! '+'
  | .delete => c! '-'
  | .single => c! '\''
  | .double => c! '"'

/-- What is reported at the start: the start of a container, or an opening quotation mark. -/
def Mark.starts : Mark → Event
  | .emphasis => .start .emphasis []
  | .strong => .start .strong []
  | .superscript => .start .superscript []
  | .subscript => .start .subscript []
  | .highlight => .start .mark []
  | .insert => .start .insert []
  | .delete => .start .delete []
  | .single => .leftSingleQuote
  | .double => .leftDoubleQuote

/-- What is reported at the end: the end of the container, or a closing quotation mark. -/
def Mark.ends : Mark → Event
  | .emphasis => .end .emphasis
  | .strong => .end .strong
  | .superscript => .end .superscript
  | .subscript => .end .subscript
  | .highlight => .end .mark
  | .insert => .end .insert
  | .delete => .end .delete
  | .single => .rightSingleQuote
  | .double => .rightDoubleQuote

/-- Elements that can be written without braces. -/
def Mark.bare : Mark → Bool
  | .emphasis | .strong | .superscript | .subscript | .single | .double => true
  | _ => false

/-- Quotations. -/
def Mark.quote : Mark → Bool
  | .single | .double => true
  | _ => false

/-- What verbatim text is: code, in the format of the output, or mathematics (in the text or displayed). -/
inductive Verb
  | plain | raw (format : Bytes) | math (display : Bool)
  deriving DecidableEq, Repr, Inhabited

/-- The container of verbatim text. -/
def Verb.container : Verb → Container
  | .plain => .verbatim
  | .raw f => .rawInline f
  | .math d => .math d

/-- The dollar signs before mathematics. -/
def dollars (display : Bool) : Bytes := if display then b! "$$" else b! "$"

/-- What is written before the opening backticks. -/
def Verb.before : Verb → Bytes
  | .math d => dollars d
  | _ => []

/-- What is written after the closing backticks. -/
def Verb.behind : Verb → Bytes
  | .raw f => b! "{=" ++ f ++ b! "}"
  | _ => []

/-- A blank keeps backticks of the text apart from those around it. -/
def keepApart (c : Option UInt8) : Bytes := if c = some (c! '`') then [c! ' '] else []

/-- Inline content: plain text, an escaped character, the end of a line, a hard line break, a space that does not break,
an ellipsis, an em dash or en dash, a closing quotation mark that closes nothing, an apostrophe, a symbol, a reference
to a footnote, a link to an address that is its own text, verbatim text between `n` backticks, an element or a quotation
with or without braces, a link or image with its destination. -/
inductive Inl
  | text (s : Bytes)
  | esc (c : UInt8)
  | soft
  | hard
  | nbsp
  | dots
  | dash (em : Bool)
  | right (double : Bool)
  | apos
  | symbol (s : Bytes)
  | note (s : Bytes)
  | auto (u : Bytes)
  | code (v : Verb) (n : Nat) (s : Bytes)
  | elem (m : Mark) (braced : Bool) (body : List Inl)
  | link (image : Bool) (body : List Inl) (url : Bytes)
  deriving Repr, Inhabited

/-- The container of a link or image with a destination in parentheses. -/
def linkTo (image : Bool) (url : Bytes) : Container := if image then .image url .inline else .link url (.span .inline)

/-- The container of a link that is its own text. -/
def autoTo (u : Bytes) : Container := .link u (if u.contains (c! '@') then .email else .autoLink)

/-! ## Writing -/

mutual
/-- How content is written. -/
def Inl.print : Inl → Bytes
  | .text s => s
  | .esc c => [c! '\\', c]
  | .soft => [c! '\n']
  | .hard => b! "\\\n"
  | .nbsp => b! "\\ "
  | .dots => b! "..."
  | .dash em => if em then b! "---" else b! "--"
  | .right double => if double then b! "\"}" else b! "'}"
  | .apos => b! "'"
  | .symbol s => b! ":" ++ s ++ b! ":"
  | .note s => b! "[^" ++ s ++ b! "]"
  | .auto u => b! "<" ++ u ++ b! ">"
  | .code v n s => v.before ++ ticks n ++ (keepApart s.head? ++ s ++ keepApart s.getLast?) ++ ticks n ++ v.behind
  | .elem m true body => [c! '{', m.ch] ++ prints body ++ [m.ch, c! '}']
  | .elem m false body => [m.ch] ++ prints body ++ [m.ch]
  | .link image body url => (if image then b! "![" else b! "[") ++ prints body ++ b! "](" ++ url ++ b! ")"
/-- How a sequence is written. -/
def prints : List Inl → Bytes
  | [] => []
  | i :: is => i.print ++ prints is
end

/-! ## Events -/

mutual
/-- The events of content, where text may be in several pieces. -/
def Inl.events : Inl → List Event
  | .text s => [.str s]
  | .esc c => [.escape, .str [c]]
  | .soft => [.softbreak]
  | .hard => [.escape, .hardbreak]
  | .nbsp => [.escape, .nonBreakingSpace]
  | .dots => [.ellipsis]
  | .dash em => [if em then .emDash else .enDash]
  | .right double => [if double then .rightDoubleQuote else .rightSingleQuote]
  | .apos => [.rightSingleQuote]
  | .symbol s => [.symbol s]
  | .note s => [.footnoteReference s]
  | .auto u => [.start (autoTo u) [], .str u, .end (autoTo u)]
  | .code v _ s => [.start v.container [], .str s, .end v.container]
  | .elem m _ body => m.starts :: (inlEvents body ++ [m.ends])
  | .link image body url => .start (linkTo image url) [] :: (inlEvents body ++ [.end (linkTo image url)])
/-- The events of a sequence. -/
def inlEvents : List Inl → List Event
  | [] => []
  | i :: is => i.events ++ inlEvents is
end

/-- Adjacent pieces of text are one text; there are no empty texts. -/
def joined : List Event → List Event
  | [] => []
  | .str a :: es =>
    if a = [] then joined es
    else match joined es with
      | .str b :: es' => .str (a ++ b) :: es'
      | es' => .str a :: es'
  | e :: es => e :: joined es

/-! ## What can be written -/

/-- Characters that mean themselves anywhere in a line; others are to be escaped. A dollar sign is special before
backticks. -/
def isPlain (c : UInt8) : Bool := !Lex.isSpecial c && c != c! '$'

/-- Verbatim text that can be written between `n` backticks: it has no run of `n` backticks, and whitespace at the start
or the end is not next to a backtick. -/
def CodeOk (n : Nat) (s : Bytes) : Prop :=
  0 < n ∧ n < 256 ∧ s ≠ [] ∧ c! '\n' ∉ s
  ∧ (∀ w r, s = w ++ c! '`' :: r → w ≠ [] → ∃ c ∈ w, isWs c = false)
  ∧ (∀ r w, s = r ++ c! '`' :: w → w ≠ [] → ∃ c ∈ w, isWs c = false)
  ∧ NoRun n s

/-- A raw format has a name. -/
def Verb.Ok : Verb → Prop
  | .raw f => FormatName f
  | _ => True

/-- Characters that have no meaning in the destination of a link. -/
def isUrl (c : UInt8) : Bool :=
  !Lex.isSpecial c || c == c! '.' || c == c! ':' || c == c! '-' || c == c! '+' || c == c! '=' || c == c! '!' || c == c! '|'

/-- The first and the last character are no whitespace. -/
def Tight (s : Bytes) : Prop :=
  (∃ c, s.head? = some c ∧ isWs c = false) ∧ ∃ c, s.getLast? = some c ∧ isWs c = false

/-- What may directly follow: after verbatim text no verbatim text, as the backticks would be one run; no highlight, as
`{=` would start a raw format; and no backslash (it would not be taken for one). After a space that does not break no
other whitespace; no two runs of dots or dashes. A single quotation mark opens a quotation only after whitespace, and is
an apostrophe only after text that does not end with whitespace. Mathematics comes after text. -/
def mayFollow : Inl → Inl → Bool
  | .text _, .code (.math _) .. => true
  | _, .code (.math _) .. => false
  | .code .plain .., .code .. | .code (.math _) .., .code .. => false
  | .code .plain .., .esc _ | .code .plain .., .hard | .code .plain .., .nbsp => false
  | .code (.math _) .., .esc _ | .code (.math _) .., .hard | .code (.math _) .., .nbsp => false
  | .code .plain .., .elem .highlight .. | .code (.math _) .., .elem .highlight .. => false
  | .text s, .elem .single .. => s.getLast?.any isWs
  | .soft, .elem .single .. | .hard, .elem .single .. => true
  | _, .elem .single .. => false
  | .text s, .apos => s.getLast?.any (fun c => !isWs c)
  | _, .apos => false
  | .nbsp, .soft => false
  | .nbsp, .text s => !(s.head?.any isWs)
  | .dots, .dots => false
  | .dash _, .dash _ => false
  | _, _ => true

/-- Every two neighbours may follow each other. -/
def follow : List Inl → Bool
  | a :: b :: is => mayFollow a b && follow (b :: is)
  | _ => true

/-- The text of a link does not start with a superscript without braces, as `[^` would start a footnote reference. -/
def noCaret : List Inl → Bool
  | .elem .superscript false _ :: _ => false
  | _ => true

/-- A single quotation mark does not open a quotation, and is no apostrophe, right after another delimiter; there is no
mathematics. -/
def noSingle : List Inl → Bool
  | .elem .single .. :: _ | .apos :: _ | .code (.math _) .. :: _ => false
  | _ => true

/-- Content that does not start with something that only comes after text: an apostrophe, mathematics. -/
def fresh : List Inl → Bool
  | .apos :: _ | .code (.math _) .. :: _ => false
  | _ => true

/-- The mark of a closing quotation mark. -/
def quoteOf (double : Bool) : Mark := if double then .double else .single

mutual
/-- Content that can be written inside elements `B` without braces and inside quotations `B`. -/
def Inl.Ok (B : List Mark) : Inl → Prop
  | .text s => s ≠ [] ∧ ∀ c ∈ s, isPlain c = true
  | .esc c => isPunct c = true
  | .right double => quoteOf double ∉ B
  | .apos => Mark.single ∉ B
  | .symbol s => s ≠ [] ∧ SymbolName s
  | .note s => NoteLabel s ∧ s.head? ≠ some (c! '}')
  | .auto u => Address u
  | .code v n s => CodeOk n s ∧ v.Ok
  | .elem m true body => body ≠ [] ∧ (m.quote = true → Tight (prints body)) ∧ follow body = true ∧ noSingle body = true
      ∧ InlsOk (if m.quote then m :: B else B) body
  | .elem m false body => m.bare = true ∧ m ∉ B ∧ Tight (prints body) ∧ follow body = true ∧ noSingle body = true ∧ InlsOk (m :: B) body
  | .link image body url => follow body = true ∧ noSingle body = true ∧ (image = false → noCaret body = true) ∧ (∀ c ∈ url, isUrl c = true) ∧ InlsOk B body
  | _ => True
/-- All of a sequence can be written. -/
def InlsOk (B : List Mark) : List Inl → Prop
  | [] => True
  | i :: is => i.Ok B ∧ InlsOk B is
end

end Jotdown.Round
