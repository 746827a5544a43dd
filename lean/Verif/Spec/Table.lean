import Verif.Model.Block
import Verif.Spec.Fence
/-! # Specification of tables -/
namespace Jotdown.Block
open Jotdown

/-- Split a row at its pipes, except those that are escaped by a backslash or stand in verbatim text.
`s` is the text at offset `pos`, the current cell starts at `cellStart`, `verb` is the number of backticks
of the verbatim text the scan is in, and the next `skip` bytes have no meaning of their own. The result
are the ranges of the cells, and whether verbatim text is left open. -/
def splitRow (skip pos cellStart : Nat) (verb : Option Nat) : Bytes → List Span × Bool
  | [] => ([], verb.isSome)
  | c :: r =>
    match skip with
    | n + 1 => splitRow n (pos + 1) cellStart verb r
    | 0 =>
      if c = c! '`' then
        let more := (r.takeWhile (· == c! '`')).length
        let verb' := match verb with
          | none => some (more + 1)
          | some n => if more + 1 = n then none else verb
        splitRow more (pos + 1) cellStart verb' r
      else if verb.isSome then splitRow 0 (pos + 1) cellStart verb r
      else if c = c! '|' then
        let cells := splitRow 0 (pos + 1) (pos + 1) verb r
        (⟨cellStart, pos⟩ :: cells.1, cells.2)
      else if c = c! '\\' && r.head?.any (fun d => isWs d || isPunct d) then splitRow 1 (pos + 1) cellStart verb r
      else splitRow 0 (pos + 1) cellStart verb r

/-- The range without the whitespace at both ends of its text. -/
def trimRange (src : Bytes) (sp : Span) : Span :=
  let start := sp.start + ((textAt src sp).takeWhile isWs).length
  ⟨start, start + (trim (textAt src sp)).length⟩

/-- A cell of a separator row: hyphens, at least one, with a colon at none, one or both ends. -/
def isSeparator (s : Bytes) : Bool :=
  let t := if s.head? = some (c! ':') then s.drop 1 else s
  let t := if t.getLast? = some (c! ':') then t.dropLast else t
  !t.isEmpty && t.all (· == c! '-')

/-- The alignment given by a separator cell. -/
def separatorAlignment (s : Bytes) : Alignment :=
  match s.head? == some (c! ':'), s.getLast? == some (c! ':') with
  | false, false => .unspecified
  | false, true => .right
  | true, false => .left
  | true, true => .center

/-- The events of the cells from column `i` on. -/
def cellEvents (src : Bytes) (als : List Alignment) (i : Nat) : List Span → List Event
  | [] => []
  | c :: cs =>
    let a := (als[i]?).getD .unspecified
    ⟨.enter (.leaf (.tableCell a)), ⟨c.start, c.start⟩⟩ :: ⟨.inline, trimRange src c⟩
      :: ⟨.exit (.leaf (.tableCell a)), ⟨c.stop, c.stop + 1⟩⟩ :: cellEvents src als (i + 1) cs

/-- A row of a table: the range of the line without whitespace around it, and its cells. -/
structure TableRow where
  range : Span
  cells : List Span
  unclosed : Bool

/-- The row in a line of a table. -/
def rowOf (src : Bytes) (line : Span) : TableRow :=
  let range := trimRange src line
  let s := splitRow 0 (range.start + 1) (range.start + 1) none ((textAt src range).drop 1)
  ⟨range, s.1, s.2⟩

/-- All cells of the row are separators. -/
def TableRow.isSeparatorRow (src : Bytes) (r : TableRow) : Bool :=
  !r.unclosed && r.cells.all (fun c => isSeparator (trim (textAt src c)))

def TableRow.alignments (src : Bytes) (r : TableRow) : List Alignment :=
  r.cells.map (fun c => separatorAlignment (trim (textAt src c)))

/-- The events of a row. -/
def rowEvents (src : Bytes) (head : Bool) (als : List Alignment) (r : TableRow) : List Event :=
  ⟨.enter (.container (.tableRow head)), ⟨r.range.start, r.range.start + 1⟩⟩ :: cellEvents src als 0 r.cells
    ++ [⟨.exit (.container (.tableRow head)), ⟨r.range.stop, r.range.stop⟩⟩]

/-- The events of the rows of a table. A separator row has no events, but sets the alignments of the
columns for the row before it and the following ones, and makes the row before it (`prev`: row, whether it
is a head row, and its alignments) a head row. -/
def tableEvents (src : Bytes) (als : List Alignment) (prev : Option (TableRow × Bool × List Alignment)) : List TableRow → List Event
  | [] => match prev with
    | some (r, head, a) => rowEvents src head a r
    | none => []
  | row :: rows =>
    if row.isSeparatorRow src then
      tableEvents src (row.alignments src) (prev.map (fun p => (p.1, true, row.alignments src))) rows
    else
      (match prev with
        | some (r, head, a) => rowEvents src head a r
        | none => []) ++ tableEvents src als (some (row, false, als)) rows

end Jotdown.Block
