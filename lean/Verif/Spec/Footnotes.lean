import Verif.Model.Parser
/-! # Specification: footnotes of a document

Which labels are referenced, in which order, and what the notes are. Independent of the renderer. -/
namespace Jotdown.Html
open Jotdown

/-- The elements in the order of their first occurrence. -/
def distinct : List Bytes → List Bytes
  | [] => []
  | l :: ls => l :: (distinct ls).filter (fun x => x != l)

/-- The events outside footnotes; `depth` is the number of footnotes open. -/
def outside (depth : Nat) : List Event → List Event
  | [] => []
  | .start (.footnote _) _ :: es => outside (depth + 1) es
  | .end (.footnote _) :: es => outside (depth - 1) es
  | e :: es => if depth = 0 then e :: outside depth es else outside depth es

/-- The footnotes, in the order in which they end: their label and the events directly in them
(not in a footnote nested in them). -/
def notesOf (open_ : List (Bytes × List Event)) : List Event → List (Bytes × List Event)
  | [] => []
  | .start (.footnote l) _ :: es => notesOf ((l, []) :: open_) es
  | .end (.footnote _) :: es =>
    match open_ with
    | [] => notesOf [] es
    | p :: rest => p :: notesOf rest es
  | e :: es =>
    match open_ with
    | [] => notesOf [] es
    | (l, evs) :: rest => notesOf ((l, evs ++ [e]) :: rest) es

/-- The labels referenced outside link definitions. -/
def refsOf (inDefinition : Bool) : List Event → List Bytes
  | [] => []
  | .start (.linkDefinition _) _ :: es => refsOf true es
  | .end (.linkDefinition _) :: es => refsOf false es
  | .footnoteReference l :: es => if inDefinition then refsOf inDefinition es else l :: refsOf inDefinition es
  | _ :: es => refsOf inDefinition es

/-- The events of the note with a label: the last footnote with it, nothing if there is none. -/
def noteOf (notes : List (Bytes × List Event)) (l : Bytes) : List Event :=
  (((notes.filter (fun p => p.1 == l)).getLast?).map (·.2)).getD []

/-- From the list `Ls` of labels so far, where the first `n` notes are written, to the list of all labels: the next note
is that of the label in place `n`, and labels first referenced in it are added at the end of the list. -/
inductive NotesFrom (refs : Bytes → List Bytes) : Nat → List Bytes → List Bytes → Prop
  | done {n : Nat} {Ls : List Bytes} (h : Ls.length ≤ n) : NotesFrom refs n Ls Ls
  | note {n : Nat} {Ls Ls' : List Bytes} {l : Bytes} (hl : Ls[n]? = some l)
      (h : NotesFrom refs (n + 1) (distinct (Ls ++ refs l)) Ls') : NotesFrom refs n Ls Ls'

/-- `Ls` is the order of the notes of a document: the labels in order of their first reference, where
the references in the notes themselves come after those outside, note by note. -/
def NoteOrder (body : List Event) (Ls : List Bytes) : Prop :=
  NotesFrom (fun l => refsOf false (noteOf (notesOf [] body) l)) 0 (distinct (refsOf false (outside 0 body))) Ls

end Jotdown.Html
