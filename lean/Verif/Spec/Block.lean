import Verif.Model.Block
/-! # Specifications for the block structure -/
namespace Jotdown.Block
open Jotdown

/-- May a node stand directly inside a container? -/
def mayContain : Container → Node → Bool
  | .list .., .container (.listItem _) => true
  | .list .., .leaf .descriptionTerm => true
  | .list .., _ => false
  | .table, .container (.tableRow _) => true
  | .table, .leaf .caption => true
  | .table, _ => false
  | .tableRow _, .leaf (.tableCell _) => true
  | .tableRow _, _ => false
  | _, .container .document => false
  | _, .container (.listItem _) => false
  | _, .container (.tableRow _) => false
  | _, .leaf .descriptionTerm => false
  | _, .leaf (.tableCell _) => false
  | _, .leaf .caption => false
  | .document, .container (.section _) => true
  | .section _, .container (.section _) => true
  | _, .container (.section _) => false
  | _, _ => true

/-- A stack machine that accepts a list of block events if each node that is entered is exited by a
matching exit in nested order, nodes stand only where they may, inline content stands only in leaves
and leaves contain only inline content. The stack holds the nodes that are open. -/
def nested : List Node → List Event → Bool
  | st, [] => st.isEmpty
  | st, e :: es =>
    match e.kind, st with
    | .enter n, .container c :: _ => mayContain c n && nested (n :: st) es
    | .enter _, _ => false
    | .exit n, m :: st' => n == m && nested st' es
    | .exit _, [] => false
    | .inline, .leaf _ :: _ => nested st es
    | .inline, _ => false
    | .atom _, .container _ :: _ => nested st es
    | .atom _, _ => false
    | .stale, _ => nested st es

/-- Where the walk through the sections stands: directly after the enter event of a section that
follows a section of level `closed`, somewhere in the content, or after the end of a section. -/
inductive SecPos where
  | start (pos : Nat) (closed : Option Nat)
  | content
  | closed (level : Nat)

def SecPos.isStart : SecPos → Bool
  | .start .. => true
  | _ => false

def SecPos.lastClosed : SecPos → Option Nat
  | .closed n => some n
  | _ => none

/-- Walk through the events inside the document. `o` are the levels of the open sections, innermost
first, `d` the number of other open nodes. A section starts with its heading; its level is greater
than those of the sections that stay open and at most that of the section closed just before it.
Nothing but attributes, the start of a section and the end of a section follows the end of a section.
Headings outside containers always start a section, those inside containers never do. -/
def secWalk (o : List Nat) (s : SecPos) (d : Nat) : List Event → Bool
  | [] => o.isEmpty && d == 0 && !s.isStart
  | e :: es =>
    match e.kind, s with
    | .enter (.leaf (.heading n true p)), .start p' c =>
      p == p' && d == 0 && o.all (· < n) && c.all (n ≤ ·) && secWalk (n :: o) .content 1 es
    | _, .start _ _ => false
    | .enter (.container (.section p)), s => d == 0 && secWalk o (.start p s.lastClosed) 0 es
    | .exit (.container (.section _)), _ =>
      d == 0 && (match o with
        | n :: o' => secWalk o' (.closed n) 0 es
        | [] => false)
    | .atom .attributes, s => secWalk o s d es
    | _, .closed _ => false
    | .enter (.leaf (.heading _ hs _)), .content => !hs && d != 0 && secWalk o .content (d + 1) es
    | .enter _, .content => secWalk o .content (d + 1) es
    | .exit _, .content => d != 0 && secWalk o .content (d - 1) es
    | _, .content => secWalk o .content d es

/-- The events without stale ones and without captions. -/
def mainEvents (inCaption : Bool) : List Event → List Event
  | [] => []
  | e :: es =>
    match e.kind with
    | .stale => mainEvents inCaption es
    | .enter (.leaf .caption) => mainEvents true es
    | .exit (.leaf .caption) => mainEvents false es
    | _ => if inCaption then mainEvents inCaption es else e :: mainEvents inCaption es

/-- The spans do not overlap and are in order, starting from `lo`. -/
def orderedFrom (lo : Nat) : List Span → Prop
  | [] => True
  | sp :: sps => lo ≤ sp.start ∧ sp.start ≤ sp.stop ∧ orderedFrom sp.stop sps

end Jotdown.Block
