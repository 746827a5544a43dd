import Verif.Spec.Doc
import Verif.Spec.Notation
/-! # Specification: how the inline elements of a document are written

Every inline event has a range of the source. This specification tells what is written there: the start and the end of
an element are its delimiters, the end is followed by the attributes of the element, and a symbol, a quote, a dash or another
event without contents is what is in its range. -/
namespace Jotdown
open Jotdown
open Jotdown.Notation

/-- An inline element that was started: its attributes, the range of its start, and the text in it up to now. -/
structure Opened where
  c : Container
  attrs : Attr.Attributes
  at_ : Span
  text : Bytes

/-- The text that an event adds to the elements around it: a line break counts as a space, and what has been replaced, such as
a dash, as what is written. -/
def shownText (src : Bytes) : Event × Span → Bytes
  | (.str s, _) => s
  | (.softbreak, _) | (.hardbreak, _) => b! " "
  | (.escape, _) => []
  | (_, sp) => textAt src sp

/-- More text in the elements `st`. -/
def moreText (st : List Opened) (t : Bytes) : List Opened := st.map fun k => { k with text := k.text ++ t }

/-- What references with a label mean: destination, kind, and attributes of the definition. -/
abbrev Resolver := Bytes → Bytes × SpanLinkType × Attr.Attributes

/-- A link or image with attributes `a` of which `own` are written at the link; its text is `w`. `R` is used for references. -/
def LinkEnd (src : Bytes) (R : Resolver) (url : Bytes) (a own : Attr.Attributes) (w b : Bytes) : SpanLinkType → Prop
  | .inline => a = own ∧ Target src (b! "](") (b! ")") b url
  | t => ∃ label, Label src w b label ∧ (R label).1 = url ∧ (R label).2.1 = t ∧ a = (R label).2.2 ++ own

/-- The element is written with `o` before and `b` after the source `t`, the text in it is `w`; `a` are the attributes of its start event, `own`
those written at its end. -/
def Delimited (src : Bytes) (R : Resolver) (a own : Attr.Attributes) (w o t b : Bytes) : Container → Prop
  | .span => a = own ∧ ((Bracket o ∧ b = b! "]") ∨ (o = [] ∧ b = []))
  | .subscript => a = own ∧ Around (c! '~') o b
  | .superscript => a = own ∧ Around (c! '^') o b
  | .emphasis => a = own ∧ Around (c! '_') o b
  | .strong => a = own ∧ Around (c! '*') o b
  | .insert => a = own ∧ Braced (c! '+') o b
  | .delete => a = own ∧ Braced (c! '-') o b
  | .mark => a = own ∧ Braced (c! '=') o b
  | .verbatim => a = own ∧ Ticked [] o t b
  | .math false => a = own ∧ Ticked (b! "$") o t b
  | .math true => a = own ∧ Ticked (b! "$$") o t b
  | .rawInline f => a = own ∧ RawTicked f o t b
  | .link url .autoLink => a = own ∧ o = b! "<" ∧ b = b! ">" ∧ url = t ∧ Address t ∧ c! '@' ∉ t
  | .link url .email => a = own ∧ o = b! "<" ∧ b = b! ">" ∧ url = t ∧ Address t ∧ c! '@' ∈ t
  | .link url (.span ty) => Bracket o ∧ LinkEnd src R url a own w b ty
  | .image url ty => o = b! "![" ∧ LinkEnd src R url a own w b ty
  | _ => False

/-- The element `k` ends at `x` with its delimiter and its attributes. -/
def Closes (src : Bytes) (R : Resolver) (k : Opened) (x : Span) : Prop :=
  ∃ b s own, textAt src x = b ++ s ∧ WrittenAttrs s own ∧
    Delimited src R k.attrs own k.text (textAt src k.at_) (textAt src ⟨k.at_.stop, x.start⟩) b k.c

/-- What is written for an event without contents. -/
def AtomSpelled (t : Bytes) : Event → Prop
  | .str s => t = s
  | .footnoteReference l => t = b! "[^" ++ l ++ b! "]" ∧ NoteLabel l
  | .symbol s => t = b! ":" ++ s ++ b! ":" ∧ SymbolName s
  | .softbreak => t = b! "\n"
  | .hardbreak => ∃ b, (∀ x ∈ b, x = c! ' ' ∨ x = c! '\t') ∧ t = b ++ b! "\n"
  | .escape => t = b! "\\"
  | .nonBreakingSpace => t = b! " "
  | .ellipsis => t = b! "..."
  | .enDash => t = b! "--"
  | .emDash => t = b! "---"
  | .leftSingleQuote => t = b! "'" ∨ t = b! "{'"
  | .rightSingleQuote => t = b! "'" ∨ t = b! "'}" ∨ t = b! "{'"
  | .leftDoubleQuote => t = b! "\"" ∨ t = b! "{\""
  | .rightDoubleQuote => t = b! "\"" ∨ t = b! "\"}"
  | _ => True

/-- An event when the inline elements `st` are open, innermost first; `st'` are open after it. `inLeaf` tells whether the
event is in a block that has no other blocks inside. -/
def SpellStep (src : Bytes) (R : Resolver) (inLeaf : Bool) (st : List Opened) (e : Event × Span) (st' : List Opened) : Prop :=
  match e.1 with
  | .start c a => st' = if isInline c then ⟨c, a, e.2, []⟩ :: st else st
  | .end c => if isInline c then ∃ k, st = k :: st' ∧ k.c = c ∧ Closes src R k e.2 else st' = st
  | .attributes a => st' = st ∧ (inLeaf = true → a ≠ [] ∧ WrittenAttrs (textAt src e.2) a)
  | ev => st' = moreText st (shownText src e) ∧ AtomSpelled (textAt src e.2) ev

/-- Whether what follows is in a block that has no other blocks inside. -/
def leafAfter (inLeaf : Bool) : Event → Bool
  | .start c _ => if isInline c then inLeaf else isLeafBlock c
  | .end c => if isInline c then inLeaf else false
  | _ => inLeaf

/-- All events are written as they should be, when the inline elements `st` are open; at the end `st'` are open. -/
inductive Spells (src : Bytes) (R : Resolver) : Bool → List Opened → List (Event × Span) → List Opened → Prop
  | nil {l st} : Spells src R l st [] st
  | cons {l st st' st'' e es} : SpellStep src R l st e st' → Spells src R (leafAfter l e.1) st' es st'' → Spells src R l st (e :: es) st''

/-- The events of a document are written as they should be. -/
def Spelled (src : Bytes) (R : Resolver) (evs : List (Event × Span)) : Prop := Spells src R false [] evs []

end Jotdown
