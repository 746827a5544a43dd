import Verif.Model.Html
/-! # Specification: events whose names are safe

Names that the renderer writes without escaping: attribute keys, symbols and classes of divs. The
parser produces only such names. -/
namespace Jotdown.Html
open Jotdown

/-- An attribute key: letters, digits, `_`, `:` and `-`. -/
def SafeKey (k : Bytes) : Prop := ∀ c ∈ k, isAlnum c = true ∨ c = c! '_' ∨ c = c! ':' ∨ c = c! '-'

/-- Attributes with safe keys. The values are arbitrary. -/
def SafeAttrs (a : Attr.Attributes) : Prop := ∀ e ∈ a, ∀ k, e.1 = .pair k → SafeKey k

/-- A container that is not raw HTML and, if it is a div, has a class without `"`. -/
def SafeContainer : Container → Prop
  | .div cls => c! '"' ∉ cls
  | .rawBlock f => f ≠ b! "html"
  | .rawInline f => f ≠ b! "html"
  | _ => True

/-- An event with safe names and no raw HTML. All texts, urls, labels and attribute values are
arbitrary. -/
def SafeEvent : Event → Prop
  | .start c a => SafeContainer c ∧ SafeAttrs a
  | .symbol s => c! '<' ∉ s ∧ c! '"' ∉ s
  | .thematicBreak a => SafeAttrs a
  | _ => True

/-- An indentation string that contains no markup itself. -/
def SafeIndent (i : Option Indentation) : Prop :=
  ∀ x, i = some x → c! '<' ∉ x.string ∧ c! '"' ∉ x.string

end Jotdown.Html
