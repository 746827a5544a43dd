import Verif.Model.Basic
/-! # Specification: the tags of an HTML text

A scanner for the tags of an HTML text, and when they are balanced. Every `<` outside a tag starts a
tag, which extends to the next `>` outside quotes. -/
namespace Jotdown.Html
open Jotdown

/-- Where the scanner is: in text, in a tag, or in a quoted attribute value. The argument is the part
of the current tag seen so far, without the attribute values. -/
inductive Mode
  | text
  | tag (seen : Bytes)
  | dquote (seen : Bytes)
  | squote (seen : Bytes)
  deriving DecidableEq, Repr

/-- One character: the tag it ends, if any, and the new mode. -/
def Mode.step : Mode → UInt8 → Option Bytes × Mode
  | .text, c => if c = c! '<' then (none, .tag []) else (none, .text)
  | .tag s, c =>
    if c = c! '>' then (some s, .text)
    else if c = c! '"' then (none, .dquote s)
    else if c = 39 then (none, .squote s)
    else (none, .tag (s ++ [c]))
  | .dquote s, c => if c = c! '"' then (none, .tag s) else (none, .dquote s)
  | .squote s, c => if c = 39 then (none, .tag s) else (none, .squote s)

/-- The tags ended by a text, and the mode after it. -/
def scan (m : Mode) : Bytes → List Bytes × Mode
  | [] => ([], m)
  | c :: cs => ((m.step c).1.toList ++ (scan (m.step c).2 cs).1, (scan (m.step c).2 cs).2)

/-- The tags of a whole text (attribute values removed); `none` if it ends inside a tag. -/
def tags (s : Bytes) : Option (List Bytes) :=
  if (scan .text s).2 = .text then some (scan .text s).1 else none

/-- Elements without end tag. -/
def voidElements : List Bytes := [b! "br", b! "hr", b! "img", b! "input"]

/-- The open elements, innermost first, after a tag; an end tag must match the innermost one. -/
def openAfter (st : List Bytes) (tag : Bytes) : Option (List Bytes) :=
  match tag with
  | 47 :: name => if st.head? = some name then some st.tail else none
  | _ =>
    let name := tag.takeWhile (fun c => !isWs c)
    if voidElements.contains name then some st else some (name :: st)

/-- The open elements after a sequence of tags. -/
def openAfterAll (st : List Bytes) : List Bytes → Option (List Bytes)
  | [] => some st
  | t :: ts =>
    match openAfter st t with
    | none => none
    | some st => openAfterAll st ts

/-- The tags of `s` are balanced: the text ends outside a tag, every start tag of a non-void element
is closed by the matching end tag, in nested order. -/
def Balanced (s : Bytes) : Prop := ∃ ts, tags s = some ts ∧ openAfterAll [] ts = some []

example : Balanced (b! "<p class=\"<>\">a<br>b<em>c</em></p>") := ⟨_, rfl, rfl⟩
example : ¬ Balanced (b! "<p><em>c</p></em>") := by
  rintro ⟨ts, h, h'⟩
  simp only [show tags (b! "<p><em>c</p></em>") = some [b! "p", b! "em", b! "/p", b! "/em"] from rfl,
    Option.some.injEq] at h
  subst h
  exact absurd h' (by decide)

end Jotdown.Html
