import Verif.Model.Parser
import Verif.Spec.Events
/-! # Specification: sections in the events of a document -/
namespace Jotdown
open Jotdown

/-- Where a walk through the events stands: directly after the start of a section with this id, which follows
a section of level `closed`; somewhere in the content; or after the end of a section. -/
inductive SecAt where
  | start (id : Bytes) (closed : Option Nat)
  | content
  | closed (level : Nat)

def SecAt.isStart : SecAt → Bool
  | .start .. => true
  | _ => false

def SecAt.lastClosed : SecAt → Option Nat
  | .closed n => some n
  | _ => none

/-- Walk through the events inside the document. `o` are the levels of the open sections, innermost
first, `d` the number of other open blocks. A section starts with its heading, which has the same id; its level is greater
than those of the sections that stay open and at most that of the section closed just before it.
Nothing but attributes, the start of a section and the end of a section follows the end of a section.
Headings outside other blocks always start a section, those inside other blocks never do. -/
def secEvents (o : List Nat) (s : SecAt) (d : Nat) : List Event → Bool
  | [] => o.isEmpty && d == 0 && !s.isStart
  | e :: es =>
    match e, s with
    | .start (.heading n true id) _, .start id' c =>
      id == id' && d == 0 && o.all (· < n) && c.all (n ≤ ·) && secEvents (n :: o) .content 1 es
    | _, .start _ _ => false
    | .start (.section id) _, s => d == 0 && secEvents o (.start id s.lastClosed) 0 es
    | .end (.section _), _ =>
      d == 0 && (match o with
        | n :: o' => secEvents o' (.closed n) 0 es
        | [] => false)
    | .attributes _, s => secEvents o s d es
    | _, .closed _ => false
    | .start (.heading _ hs _) _, .content => !hs && d != 0 && secEvents o .content (d + 1) es
    | .start c _, .content => secEvents o .content (if isInline c then d else d + 1) es
    | .end c, .content => if isInline c then secEvents o .content d es else d != 0 && secEvents o .content (d - 1) es
    | _, .content => secEvents o .content d es

/-- Each start of a section is directly followed by the start of a heading with the same id that has a section. -/
def sectionsHaveHeadings : List Event → Bool
  | [] => true
  | [.start (.section _) _] => false
  | .start (.section id) _ :: .start (.heading n hs id') a :: es => hs && id == id' && sectionsHaveHeadings (.start (.heading n hs id') a :: es)
  | .start (.section _) _ :: _ => false
  | _ :: es => sectionsHaveHeadings es

end Jotdown
