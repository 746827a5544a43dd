import Verif.Model.Parser
/-! # Specification: well-nested event streams

Independent of the parser and the renderer. -/
namespace Jotdown
open Jotdown

/-- Containers that hold blocks. -/
def holdsBlocks : Container → Bool
  | .document | .blockquote | .list .. | .listItem | .taskListItem _ | .descriptionList
  | .descriptionDetails | .footnote _ | .table | .tableRow _ | .section _ | .div _ => true
  | _ => false

/-- Inline containers. -/
def isInline : Container → Bool
  | .span | .link .. | .image .. | .verbatim | .math _ | .rawInline _ | .subscript
  | .superscript | .insert | .delete | .strong | .emphasis | .mark => true
  | _ => false

/-- The stack of open containers, innermost first, after an event; `none` if the event is not
allowed: an end must match the innermost open container, blocks occur only directly inside
containers that hold blocks, and the document is not nested in anything. -/
def nest1 (st : List Container) : Event → Option (List Container)
  | .start c _ =>
    if c = .document then none
    else if isInline c || (st.head?.map holdsBlocks).getD false then some (c :: st) else none
  | .end c =>
    match st with
    | [] => none
    | d :: st => if c = d ∧ c ≠ .document then some st else none
  | .thematicBreak _ => if (st.head?.map holdsBlocks).getD false then some st else none
  | _ => some st

/-- The same for a sequence of events. -/
def nest (st : List Container) : List Event → Option (List Container)
  | [] => some st
  | e :: es =>
    match nest1 st e with
    | none => none
    | some st => nest st es

/-- The events of a whole document: a well-nested sequence between the start and the end of the
document. -/
def DocumentEvents (es : List Event) : Prop :=
  ∃ attrs body, es = .start .document attrs :: (body ++ [.end .document]) ∧
    nest [.document] body = some [.document]

/-- The event with its text, if it is a text, replaced by the empty one. Two streams have equal
`map eraseText` if they differ at most in their texts. -/
def eraseText : Event → Event
  | .str _ => .str []
  | e => e

end Jotdown
