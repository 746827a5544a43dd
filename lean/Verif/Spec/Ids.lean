import Verif.Model.Parser
/-! # Specification: ids of headings -/
namespace Jotdown
open Jotdown

/-- Characters kept in the id of a heading: everything but ASCII whitespace and punctuation, and also `-` and `_`. -/
def idChar (c : UInt8) : Bool := !isWs c && (!isPunct c || c == c! '-' || c == c! '_')

/-- The id of a heading from its contents, given as the bytes of its text with `none` for a line
break: characters that are not kept are dropped, a line break and the first whitespace after a kept
character become `-`. `gap` tells that whitespace is dropped. -/
def slug (gap : Bool) : List (Option UInt8) → Bytes
  | [] => []
  | none :: cs => c! '-' :: slug gap cs
  | some c :: cs =>
    if isWs c then (if gap then slug true cs else c! '-' :: slug true cs)
    else if idChar c then c :: slug false cs
    else slug gap cs

/-- The text of a heading: line breaks become spaces. -/
def headingText (content : List (Option UInt8)) : Bytes := content.map (·.getD (c! ' '))

/-- `s` without trailing dashes. -/
def noTrailingDash (s : Bytes) : Bytes := (s.reverse.dropWhile (· == c! '-')).reverse

/-- The id assigned to a heading with slug `s` if `used` are the ids of the headings before: the slug if
it is new and not empty, otherwise the slug (or `s`) and the first number that makes it new. -/
def AutoId (used : List Bytes) (s id : Bytes) : Prop :=
  (noTrailingDash s ≠ [] ∧ noTrailingDash s ∉ used ∧ id = noTrailingDash s) ∨
  ((noTrailingDash s = [] ∨ noTrailingDash s ∈ used) ∧ ∃ base k,
    base = (if noTrailingDash s = [] then b! "s" else noTrailingDash s) ++ b! "-" ∧ 1 ≤ k ∧
    id = base ++ decimal k ∧ id ∉ used ∧ ∀ i, 1 ≤ i → i < k → base ++ decimal i ∈ used)

/-! ## The contents of headings -/

/-- The events that the inline parser has for now. -/
inductive Drains : Inline.IP → List Inline.Event → Inline.IP → Prop
  | none {p p'} : p.nextEvent = .ok (p', none) → Drains p [] p'
  | some {p p' p'' e es} : p.nextEvent = .ok (p', some e) → Drains p' es p'' → Drains p (e :: es) p''

/-- The inline parser is given the lines one by one. -/
inductive DrainsLines : Inline.IP → List Span → List Inline.Event → Prop
  | nil {p} : DrainsLines p [] []
  | cons {p q p' l ls es es'} : p.feedLine l ls.isEmpty = .ok q → Drains q es p' → DrainsLines p' ls es' → DrainsLines p (l :: ls) (es ++ es')

/-- Text counts, and line breaks. -/
def eventContent (src : Bytes) (e : Inline.Event) : List (Option UInt8) :=
  match e.kind with
  | .str => ((src.drop e.span.start).take (e.span.stop - e.span.start)).map some
  | .atom .softbreak => [none]
  | _ => []

/-- The empty line at the end of the last line. -/
def emptyLine (ls : List Span) : Span := ⟨(ls.getLast?.map (·.stop)).getD 0, (ls.getLast?.map (·.stop)).getD 0⟩

/-- The contents of a heading: what the inline parser reads from its lines, followed by an empty line. -/
def HeadingContent (src : Bytes) (ls : List Span) (content : List (Option UInt8)) : Prop :=
  ∃ es, DrainsLines (Inline.IP.new src) (ls ++ [emptyLine ls]) es ∧ content = es.flatMap (eventContent src)

/-- Each heading has the text of its lines, and the id for its contents and the ids of the headings before. -/
def AutoIds (src : Bytes) (used : List Bytes) : List Heading → List (List Span) → Prop
  | [], [] => True
  | h :: hs, ls :: lss => (∃ content, HeadingContent src ls content ∧ h.text = headingText content ∧ AutoId used (slug true content) h.idAuto) ∧
      AutoIds src (h.idAuto :: used) hs lss
  | _, _ => False

/-- The lines of the headings among the block events: the inline events that follow the start of each. -/
def headingSpans : List Block.Event → List (List Span)
  | [] => []
  | e :: es =>
    match e.kind with
    | .enter (.leaf (.heading ..)) => (es.takeWhile (fun e => e.kind == .inline)).map (·.span) :: headingSpans es
    | _ => headingSpans es

/-- The starts of the headings among the block events. -/
def headingStarts (es : List Block.Event) : List Nat :=
  es.filterMap (fun e => match e.kind with
    | .enter (.leaf (.heading ..)) => some e.span.start
    | _ => none)

/-- The text of a link definition: its lines (the inline events that follow its start), trimmed and joined. -/
def definitionUrl (src : Bytes) (es : List Block.Event) : Bytes :=
  ((es.takeWhile (fun e => e.kind == .inline)).map (fun e =>
    trim ((src.drop e.span.start).take (e.span.stop - e.span.start)))).flatten

/-- The labels of the link definitions among the block events with their urls. -/
def definitions (src : Bytes) : List Block.Event → List (Bytes × Bytes)
  | [] => []
  | e :: es =>
    match e.kind with
    | .enter (.leaf (.linkDefinition l)) => (l, definitionUrl src es) :: definitions src es
    | _ => definitions src es

/-- The ids of the headings among the events. -/
def headingIds (es : List Event) : List Bytes :=
  es.filterMap (fun e => match e with
    | .start (.heading _ _ id) _ => some id
    | _ => none)

/-- The ids of the sections among the events. -/
def sectionIds (es : List Event) : List Bytes :=
  es.filterMap (fun e => match e with
    | .start (.section id) _ => some id
    | _ => none)

end Jotdown
