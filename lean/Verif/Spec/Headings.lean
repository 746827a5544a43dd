import Verif.Spec.Ids
import Verif.Spec.Events
/-! # Specification: the headings and link definitions of a document, from its events alone -/
namespace Jotdown
open Jotdown

/-- The plain text of events: text counts, line breaks are `none`, everything else (markup, escapes, symbols, smart punctuation, ..) is left out. -/
def plainContent (es : List Event) : List (Option UInt8) :=
  es.flatMap (fun e => match e with
    | .str s => s.map some
    | .softbreak => [none]
    | _ => [])

/-- A heading of a document. -/
structure HeadingInfo where
  /-- the id reported by `Start(Heading)` -/
  id : Bytes
  /-- the attributes given to it -/
  attrs : Attr.Attributes
  /-- its contents -/
  content : List (Option UInt8)
  deriving DecidableEq

/-- Whether the event is the end of a heading. -/
def isHeadingEnd : Event → Bool
  | .end (.heading ..) => true
  | _ => false

/-- Whether the event is the end of a link definition. -/
def isDefinitionEnd : Event → Bool
  | .end (.linkDefinition _) => true
  | _ => false

/-- Whether one is in a heading after the event. -/
def inHeading (inH : Bool) : Event → Bool
  | .start (.heading ..) _ => true
  | .end (.heading ..) => false
  | _ => inH

/-- The attributes that are given to the next heading or link definition, after an event outside of headings. Attributes of a block are
also given to the first heading or link definition inside; they are forgotten after every end of a block, blank line or
thematic break, but not after the end of a section, of a heading or of a link definition. -/
def carryOut (given : Attr.Attributes) : Event → Attr.Attributes
  | .start _ a => given ++ a
  | .attributes a => given ++ a
  | .end (.section _) | .end (.linkDefinition _) | .end (.heading ..) => given
  | .end _ | .blankline | .thematicBreak _ => []
  | _ => given

/-- The attributes after an event; the contents of headings do not count. -/
def carry (inH : Bool) (given : Attr.Attributes) (e : Event) : Attr.Attributes :=
  if inH then given else carryOut given e

/-- The headings among the events, if `given` are the attributes from before. -/
def headingsFrom (inH : Bool) (given : Attr.Attributes) : List Event → List HeadingInfo
  | [] => []
  | e :: es =>
    (match e with
      | .start (.heading _ _ id) a => [⟨id, given ++ a, plainContent (es.takeWhile (fun e => !isHeadingEnd e))⟩]
      | _ => []) ++ headingsFrom (inHeading inH e) (carry inH given e) es

/-- The headings of a document. -/
def headingsOf (es : List Event) : List HeadingInfo := headingsFrom false [] es

/-- The url of a link definition: the texts in it, trimmed. -/
def urlOf (es : List Event) : Bytes :=
  ((es.takeWhile (fun e => !isDefinitionEnd e)).map (fun e => match e with
    | .str s => trim s
    | _ => [])).flatten

/-- The link definitions among the events: label, url, attributes. -/
def definitionsFrom (inH : Bool) (given : Attr.Attributes) : List Event → List (Bytes × Bytes × Attr.Attributes)
  | [] => []
  | e :: es =>
    (match e with
      | .start (.linkDefinition label) a => [(label, urlOf es, given ++ a)]
      | _ => []) ++ definitionsFrom (inHeading inH e) (carry inH given e) es

/-- The link definitions of a document. -/
def definitionsOf (es : List Event) : List (Bytes × Bytes × Attr.Attributes) := definitionsFrom false [] es

/-- The id attribute: the last one counts. -/
def idAttribute (a : Attr.Attributes) : Option Bytes :=
  (a.reverse.find? (fun e => e.1 == .id || e.1 == .pair (b! "id"))).map (fun e => Attr.display e.2)

/-- Each heading has the id attribute given to it, and otherwise the automatic id for its contents. `used` are the automatic ids of the
headings before. -/
def IdsOf (used : List Bytes) : List HeadingInfo → Prop
  | [] => True
  | h :: hs => ∃ auto, AutoId used (slug true h.content) auto ∧ h.id = (idAttribute h.attrs).getD auto ∧ IdsOf (auto :: used) hs

end Jotdown
