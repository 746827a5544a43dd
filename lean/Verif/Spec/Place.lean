import Verif.Model.Parser
import Verif.Spec.Block
import Verif.Spec.Events
/-! # Specification: the tree of events of a document

Independent of the parser. Stricter than `Spec/Events`: it tells which containers and events may
stand directly inside which container. -/
namespace Jotdown
open Jotdown

/-- Blocks that may stand in the document, in a section, block quote, list item, footnote or div. -/
def isFlow : Container → Bool
  | .blockquote | .list .. | .descriptionList | .footnote _ | .table | .div _ | .paragraph
  | .heading .. | .linkDefinition _ | .rawBlock _ | .codeBlock _ => true
  | _ => false

/-- Containers whose content are blocks of any kind. -/
def holdsFlow : Container → Bool
  | .document | .section _ | .blockquote | .listItem | .taskListItem _ | .descriptionDetails
  | .footnote _ | .div _ => true
  | _ => false

/-- Containers whose content is inline. -/
def holdsInl : Container → Bool
  | .paragraph | .heading .. | .tableCell .. | .caption | .descriptionTerm => true
  | c => isInline c

/-- Containers whose content is text without markup. -/
def holdsRaw : Container → Bool
  | .codeBlock _ | .rawBlock _ | .linkDefinition _ => true
  | _ => false

/-- May the second container stand directly inside the first? -/
def mayHold : Container → Container → Bool
  | .document, .section _ | .section _, .section _ => true
  | .list .., c | .descriptionList, c =>
    match c with
    | .listItem | .taskListItem _ | .descriptionTerm | .descriptionDetails => true
    | _ => false
  | .table, c =>
    match c with
    | .tableRow _ | .caption => true
    | _ => false
  | .tableRow h, c =>
    match c with
    | .tableCell _ h' => h == h'
    | _ => false
  | p, c => (holdsFlow p && isFlow c) || (holdsInl p && isInline c)

/-- May the event, other than a start or an end, stand directly inside the container? -/
def mayOccur (p : Container) : Event → Bool
  | .blankline =>
    match p with
    | .list .. | .descriptionList => true
    | p => holdsFlow p
  | .thematicBreak _ => holdsFlow p
  | .attributes _ => holdsFlow p || holdsInl p
  | .str _ => holdsInl p || holdsRaw p
  | _ => holdsInl p

/-- The stack of open containers, innermost first, after an event inside the document; `none` if the
event may not occur. -/
def place1 (st : List Container) : Event → Option (List Container)
  | .start c _ =>
    match st with
    | p :: st => if mayHold p c then some (c :: p :: st) else none
    | [] => none
  | .end c =>
    match st with
    | d :: p :: st => if c = d then some (p :: st) else none
    | _ => none
  | e =>
    match st with
    | p :: st => if mayOccur p e then some (p :: st) else none
    | [] => none

/-- The same for a sequence of events. -/
def place (st : List Container) : List Event → Option (List Container)
  | [] => some st
  | e :: es =>
    match place1 st e with
    | none => none
    | some st => place st es

/-- The events of a document: its start, a complete tree of events inside the document, its end. -/
def DocumentTree (es : List Event) : Prop :=
  ∃ body, es = .start .document [] :: (body ++ [.end .document]) ∧ place [.document] body = some [.document]

/-- The ranges of the events that are not part of a caption. -/
def mainSpans (inCaption : Bool) : List (Event × Span) → List Span
  | [] => []
  | (e, sp) :: es =>
    match e with
    | .start .caption _ => mainSpans true es
    | .end .caption => mainSpans false es
    | _ => if inCaption then mainSpans inCaption es else sp :: mainSpans inCaption es

end Jotdown
