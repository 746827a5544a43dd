import Verif.Model.Parser
/-! # Specification: documents without their raw HTML -/
namespace Jotdown.Html
open Jotdown

/-- A raw container for HTML becomes one for no format at all. -/
def dimContainer : Container → Container
  | .rawBlock f => .rawBlock (if f = b! "html" then [] else f)
  | .rawInline f => .rawInline (if f = b! "html" then [] else f)
  | c => c

/-- The event, where raw HTML is taken for raw text of no format. -/
def dim : Event → Event
  | .start c a => .start (dimContainer c) a
  | .end c => .end (dimContainer c)
  | e => e

/-- The second text is the first with some of the texts of a document inserted, as they are. -/
inductive WithTexts (es : List Event) : Bytes → Bytes → Prop
  | nil : WithTexts es [] []
  | keep (c : UInt8) {a b : Bytes} : WithTexts es a b → WithTexts es (c :: a) (c :: b)
  | text {s a b : Bytes} : Event.str s ∈ es → WithTexts es a b → WithTexts es a (s ++ b)

end Jotdown.Html
