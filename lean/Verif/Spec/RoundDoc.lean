import Verif.Spec.RoundInline
import Verif.Spec.Fence
import Verif.Spec.BlockSyntax
import Verif.Spec.Table
import Verif.Spec.Attr
/-! # Specification: writing documents and the events they must give back -/
namespace Jotdown.Round
open Jotdown Jotdown.Notation

/-- The lines of a text, each with the newline at its end if it has one. -/
def splitNl : Bytes → List Bytes
  | [] => []
  | c :: s =>
    if c = c! '\n' then [c] :: splitNl s
    else match splitNl s with
      | [] => [[c]]
      | l :: ls => (c :: l) :: ls

/-- What a list item begins with: a bullet, a bullet and a box, a numeral `n` with punctuation, or (in a description list) a colon. -/
inductive Label
  | bullet (b : Bullet)
  | task (b : Bullet) (checked : Bool)
  | ordered (k : Numbering) (s : NumStyle) (n : Bytes)
  | desc
  deriving Repr, Inhabited

/-- A line of a table: a row with its cells, or a separator that gives the alignments of the columns. -/
inductive TabLine
  | row (cells : List (List Inl))
  | sep (als : List Alignment)
  deriving Repr, Inhabited

/-- Blocks: a paragraph, a thematic break, a code block between fences of `n` backticks, a block quote, a div between fences of `n` colons, a list with a label and
blocks for every item; items of a tight list are not separated by blank lines; the definition of a footnote; a table with its caption (or nothing) and its lines; a block with attributes, written on a line before it. -/
inductive Blk
  | para (is : List Inl)
  | brk
  | code (n : Nat) (lang : Bytes) (ls : List Bytes)
  | quote (bs : List Blk)
  | div (n : Nat) (cls : Bytes) (bs : List Blk)
  | list (lbs : List Label) (tight : Bool) (items : List (List Blk))
  | foot (label : Bytes) (bs : List Blk)
  | table (cap : List Inl) (ls : List TabLine)
  | attr (w : Bytes) (is : List (Attr.Item × Bytes)) (b : Blk)
  deriving Repr, Inhabited

def colons (n : Nat) : Bytes := List.replicate n (c! ':')

/-! ## Writing -/

/-- A line of a block quote. -/
def quoted (l : Bytes) : Bytes := if l.all isWs then c! '>' :: l else c! '>' :: c! ' ' :: l

def bulletChar : Bullet → UInt8
  | .dash => c! '-'
  | .star => c! '*'
  | .plus => c! '+'

/-- How a label is written. -/
def Label.text : Label → Bytes
  | .bullet b => [bulletChar b]
  | .task b checked => bulletChar b :: (if checked then b! " [x]" else b! " [ ]")
  | .ordered _ s n => Numbers.marker s n
  | .desc => [c! ':']

/-- A line of a list item after its first one: indented as far as the label is long. -/
def padded (k : Nat) (l : Bytes) : Bytes := if l.all isWs then l else List.replicate k (c! ' ') ++ l

/-- A list item: the label, a space, and the lines. -/
def itemOf (label : Bytes) : List Bytes → List Bytes
  | [] => []
  | l :: L => (label ++ c! ' ' :: l) :: L.map (padded label.length)

/-- A blank line between items of a list that is not tight. -/
def itemSep (tight : Bool) : List (List Blk) → List Bytes
  | [] => []
  | _ => if tight then [] else [[c! '\n']]

/-- A blank line between blocks. -/
def sep : List Blk → List Bytes
  | [] => []
  | _ => [[c! '\n']]

/-- How the label of a footnote is written. -/
def footLabel (label : Bytes) : Bytes := b! "[^" ++ label ++ b! "]:"

/-- A cell of a separator. -/
def sepCell : Alignment → Bytes
  | .unspecified => b! "---"
  | .left => b! ":--"
  | .right => b! "--:"
  | .center => b! ":-:"

/-- The line of a row: the cells are between pipes. -/
def rowText : List (List Inl) → Bytes
  | [] => b! "|\n"
  | c :: cs => b! "| " ++ (prints c ++ c! ' ' :: rowText cs)

/-- The line of a separator. -/
def sepText : List Alignment → Bytes
  | [] => b! "|\n"
  | a :: as => c! '|' :: (sepCell a ++ sepText as)

def TabLine.text : TabLine → Bytes
  | .row cells => rowText cells
  | .sep als => sepText als

/-- The lines of the caption of a table. -/
def capLines (cap : List Inl) : List Bytes :=
  match splitNl (prints cap ++ [c! '\n']) with
  | l :: ls => if cap.isEmpty then [] else (b! "^ " ++ l) :: ls
  | [] => []

mutual
/-- The lines of a block. -/
def Blk.lines : Blk → List Bytes
  | .para is => splitNl (prints is ++ [c! '\n'])
  | .brk => [b! "***\n"]
  | .code n lang ls => (ticks n ++ lang ++ [c! '\n']) :: (ls.map (fun l => l ++ [c! '\n']) ++ [ticks n ++ [c! '\n']])
  | .quote bs => (blkLines bs).map quoted
  | .div n cls bs => (colons n ++ c! ' ' :: cls ++ [c! '\n']) :: (blkLines bs ++ [colons n ++ [c! '\n']])
  | .list lbs tight items => itemLines lbs tight items
  | .foot label bs => itemOf (footLabel label) (blkLines bs)
  | .table cap ls => ls.map TabLine.text ++ capLines cap
  | .attr w is b => (Attr.writeAttrs w is ++ [c! '\n']) :: b.lines
/-- The lines of blocks with blank lines in between. -/
def blkLines : List Blk → List Bytes
  | [] => []
  | b :: bs => b.lines ++ (sep bs ++ blkLines bs)
/-- The lines of list items. -/
def itemLines : List Label → Bool → List (List Blk) → List Bytes
  | lb :: lbs, tight, it :: its => itemOf lb.text (blkLines it) ++ (itemSep tight its ++ itemLines lbs tight its)
  | _, _, _ => []
end

/-- The text of a document. -/
def write (d : List Blk) : Bytes := (blkLines d).flatten

/-! ## Events -/

/-- The container of a list item; in a description list, the container of the details. -/
def Label.item : Label → Container
  | .bullet _ | .ordered .. => .listItem
  | .task _ checked => .taskListItem checked
  | .desc => .descriptionDetails

/-- The container of a list with this label on its first item. -/
def Label.list : Label → Bool → Container
  | .bullet b, tight => .list (.unordered b) tight
  | .task b _, tight => .list (.task b) tight
  | .ordered k s n, tight => .list (.ordered k s (Numbers.numeralValue k n).toNat) tight
  | .desc, _ => .descriptionList

/-- It is the label of a description list. -/
def Label.isDesc : Label → Bool
  | .desc => true
  | _ => false

/-- The container of a list. -/
def listOf (lbs : List Label) (tight : Bool) : Container :=
  match lbs with
  | lb :: _ => lb.list tight
  | [] => .list (.unordered .dash) tight

/-- A blank line after a block. -/
def blankAfter (after : Bool) : List Event := if after then [.blankline] else []

/-- The container of a code block; a language that starts with `=` tells the format of raw content. -/
def codeOf (lang : Bytes) : Container := if lang.head? = some (c! '=') then .rawBlock lang.tail else .codeBlock lang

/-- The lines of raw content, where the last one is not ended. -/
def rawTexts : List Bytes → List Bytes
  | [] => []
  | [l] => [l]
  | l :: ls => (l ++ [c! '\n']) :: rawTexts ls

/-- The texts of a code block. -/
def codeTexts (lang : Bytes) (ls : List Bytes) : List Bytes :=
  if lang.head? = some (c! '=') then rawTexts ls else ls.map (fun l => l ++ [c! '\n'])

/-- The events of cells from column `i` on, with the alignments of the columns. -/
def cellsEvents (als : List Alignment) (head : Bool) (i : Nat) : List (List Inl) → List Event
  | [] => []
  | c :: cs =>
    .start (.tableCell ((als[i]?).getD .unspecified) head) [] ::
      (joined (inlEvents c) ++ .end (.tableCell ((als[i]?).getD .unspecified) head) :: cellsEvents als head (i + 1) cs)

/-- The events of a row. -/
def rowEvs (als : List Alignment) (head : Bool) (cells : List (List Inl)) : List Event :=
  .start (.tableRow head) [] :: (cellsEvents als head 0 cells ++ [.end (.tableRow head)])

/-- The alignments of a separator right after a row. -/
def headAls : List TabLine → Option (List Alignment)
  | .sep a :: ls => some ((headAls ls).getD a)
  | _ => none

/-- The events of the lines of a table: a row before a separator is a head row, and a separator gives the alignments of it
and the following rows. -/
def tabEvents (als : List Alignment) : List TabLine → List Event
  | [] => []
  | .sep a :: ls => tabEvents a ls
  | .row cells :: ls =>
    (match headAls ls with
      | some a => rowEvs a true cells
      | none => rowEvs als false cells) ++ tabEvents als ls

/-- The events of the caption of a table, if there is one. -/
def capEvents (cap : List Inl) : List Event :=
  if cap.isEmpty then [] else .start .caption [] :: (joined (inlEvents cap) ++ [.end .caption])

/-- It is a list, perhaps with attributes. -/
def Blk.isList : Blk → Bool
  | .list .. => true
  | .attr _ _ b => b.isList
  | _ => false

/-- The last block is a list. -/
def endsList : List Blk → Bool
  | [] => false
  | [b] => b.isList
  | _ :: bs => endsList bs

/-- The last item ends with a list. -/
def lastEnds : List (List Blk) → Bool
  | [] => false
  | [it] => endsList it
  | _ :: its => lastEnds its

/-- It is a list whose last item ends with a list: a blank line after it belongs to that list. -/
def Blk.hides : Blk → Bool
  | .list _ _ items => lastEnds items
  | .attr _ _ b => b.hides
  | _ => false

mutual
/-- Whether there is a blank line before the blocks in a block, `g` before the block itself. What is before and in a list doesn't count. -/
def Blk.gaps : Blk → Bool → List Bool
  | .list .., _ => [false]
  | .quote bs, g | .div _ _ bs, g | .foot _ bs, g => g :: blkGaps bs false
  | .attr _ _ b, g => g :: b.gaps false
  | _, g => [g]
/-- Whether there is a blank line before the blocks, `g` before the first one. -/
def blkGaps : List Blk → Bool → List Bool
  | [], _ => []
  | b :: bs, g => b.gaps g ++ blkGaps bs (!b.hides)
/-- Whether there is a blank line before the items and the blocks in a list whose items are written without (`tight`) or with blank lines in between. -/
def itemGaps : Bool → List (List Blk) → List Bool
  | _, [] => []
  | tight, it :: its => blkGaps it false ++ (if its.isEmpty then [] else (!tight && !endsList it) :: itemGaps tight its)
end

/-- A list is tight if there are no blank lines between its items or between the blocks in them, other than in and before lists in it. -/
def isTight (tight : Bool) (items : List (List Blk)) : Bool := !(itemGaps tight items).contains true

/-- The events of the term of an item of a description list: it is the first paragraph, with the blank line after it. -/
def termEvents : List Blk → Bool → List Event
  | .para is :: bs, after => .start .descriptionTerm [] :: (joined (inlEvents is) ++ .end .descriptionTerm :: blankAfter (!bs.isEmpty || after))
  | _, _ => []

mutual
/-- The events of a block with the given attributes. A blank line after it, if there is one, is part of it: after a list, it belongs to the last item, and after a footnote, to the footnote. -/
def Blk.events : Blk → Attr.Attributes → Bool → List Event
  | .para is, as, after => .start .paragraph as :: (joined (inlEvents is) ++ .end .paragraph :: blankAfter after)
  | .brk, as, after => .thematicBreak as :: blankAfter after
  | .code _ lang ls, as, after => .start (codeOf lang) as :: ((codeTexts lang ls).map .str ++ .end (codeOf lang) :: blankAfter after)
  | .quote bs, as, after => .start .blockquote as :: (blkEvents bs false ++ .end .blockquote :: blankAfter after)
  | .div _ cls bs, as, after => .start (.div cls) as :: (blkEvents bs false ++ .end (.div cls) :: blankAfter after)
  | .list lbs tight items, as, after => .start (listOf lbs (isTight tight items)) as :: (itemEvents lbs tight items after ++ [.end (listOf lbs (isTight tight items))])
  | .foot label bs, as, after => .start (.footnote label) as :: (blkEvents bs after ++ [.end (.footnote label)])
  | .table cap ls, as, after => .start .table as :: (capEvents cap ++ (tabEvents [] ls ++ .end .table :: blankAfter after))
  | .attr _ is b, as, after => b.events (as ++ is.map (·.1.elem)) after
/-- The events of blocks with blank lines in between. -/
def blkEvents : List Blk → Bool → List Event
  | [], _ => []
  | b :: bs, after => b.events [] (!bs.isEmpty || after) ++ blkEvents bs after
/-- The events of all blocks but the first one. -/
def restEvents : List Blk → Bool → List Event
  | [], _ => []
  | _ :: bs, after => blkEvents bs after
/-- The events of list items. In a description list, the first paragraph of an item is the term, and the other blocks are the details. -/
def itemEvents : List Label → Bool → List (List Blk) → Bool → List Event
  | lb :: lbs, tight, it :: its, after =>
    (if lb.isDesc then termEvents it (if its.isEmpty then after else !tight) ++ .start lb.item [] :: restEvents it (if its.isEmpty then after else !tight)
      else .start lb.item [] :: blkEvents it (if its.isEmpty then after else !tight)) ++ .end lb.item :: itemEvents lbs tight its after
  | _, _, _, _ => []
end

/-- The events of a document. -/
def docEvents (d : List Blk) : List Event := .start .document [] :: (blkEvents d false ++ [.end .document])

/-! ## What can be written -/

/-- There is no bracket and colon as in the definition of a link. -/
def noDef : Bytes → Bool
  | c :: d :: s => !(c == c! ']' && d == c! ':') && noDef (d :: s)
  | _ => true

/-- The first line is not taken for something else than a paragraph: not for a heading, a block quote, block attributes
(which may start like `{_` or `{-`), a thematic break, or the definition of a link or a footnote. -/
def opens : List Inl → Bool
  | .text (c :: _) :: _ => c != c! '#' && c != c! '>'
  | .elem m true _ :: _ => m != .emphasis && m != .delete
  | .elem .strong false (.dash _ :: _) :: _ => false
  | .link false body _ :: _ => noDef (prints body)
  | .note _ :: is => (prints is).head? != some (c! ':')
  | .right _ :: _ => true
  | .code (.math _) .. :: _ => false
  | .esc _ :: _ | .code .. :: _ | .hard :: _ | .nbsp :: _ | .dots :: _ | .symbol _ :: _ | .auto _ :: _ | .elem .. :: _ | .link .. :: _ => true
  | _ => false

/-- Content of a paragraph: the lines do not start with whitespace, and the last one does not end with whitespace. -/
def ParaOk (is : List Inl) : Prop :=
  InlsOk [] is ∧ follow is = true ∧ opens is = true
  ∧ (∀ l ∈ splitNl (prints is), ∃ c, l.head? = some c ∧ isWs c = false)
  ∧ ∃ c, (prints is).getLast? = some c ∧ isWs c = false

/-- Content of a heading or a caption: the lines do not start with whitespace, and the last one does not end with whitespace. -/
def TitleOk (is : List Inl) : Prop :=
  InlsOk [] is ∧ follow is = true ∧ fresh is = true
  ∧ (∀ l ∈ splitNl (prints is), ∃ c, l.head? = some c ∧ isWs c = false)
  ∧ ∃ c, (prints is).getLast? = some c ∧ isWs c = false

/-- A cell that can be written on one line: all pipes are escaped or in verbatim text. -/
def CellOk (c : List Inl) : Prop :=
  c = [] ∨ (InlsOk [] c ∧ follow c = true ∧ fresh c = true ∧ Tight (prints c) ∧ c! '\n' ∉ prints c
    ∧ Block.splitRow 0 0 0 none (prints c ++ [c! ' ']) = ([], false))

/-- Lines of a table that can be written: a row has a cell that does not look like a separator. -/
def TabLine.Ok : TabLine → Prop
  | .row cells => (∀ c ∈ cells, CellOk c) ∧ ∃ c ∈ cells, Block.isSeparator (prints c) = false
  | .sep als => als ≠ []

mutual
/-- The longest fence of the divs in a block that are not in a block quote or a div. -/
def Blk.fence : Blk → Nat
  | .div n .. => n
  | .list _ _ items => itemsFence items
  | .foot _ bs => blksFence bs
  | .attr _ _ b => b.fence
  | _ => 0
def blksFence : List Blk → Nat
  | [] => 0
  | b :: bs => max b.fence (blksFence bs)
def itemsFence : List (List Blk) → Nat
  | [] => 0
  | it :: its => max (blksFence it) (itemsFence its)
end

/-- It is a list without attributes. -/
def Blk.begins : Blk → Bool
  | .list .. => true
  | _ => false

/-- A blank line after it is part of it. -/
def Blk.keeps : Blk → Bool
  | .list .. | .foot .. => true
  | .attr _ _ b => b.keeps
  | _ => false

def Blk.isPara : Blk → Bool
  | .para _ => true
  | _ => false

/-- Numerals have a value. -/
def Label.Ok : Label → Prop
  | .ordered k _ n => n ≠ [] ∧ (∀ c ∈ n, Numbers.IsDigitOf k c) ∧ Syntax.NumeralOk k n ∧ 0 ≤ Numbers.numeralValue k n
  | _ => True

/-- Labels of items of the same list. -/
def Label.like : Label → Label → Prop
  | .bullet b, .bullet c => b = c
  | .task b _, .task c _ => b = c
  | .ordered k s _, .ordered l t _ => k = l ∧ s = t
  | .desc, .desc => True
  | _, _ => False

/-- If a blank line in a list separates blocks, then this is not only so before the very last block. -/
def GapsOk (tight : Bool) (items : List (List Blk)) : Prop := true ∈ itemGaps tight items → true ∈ (itemGaps tight items).dropLast

/-- The first block is a paragraph. -/
def startsPara : List Blk → Bool
  | b :: _ => b.isPara
  | [] => false

/-- A list is not followed by another one without attributes. -/
def apart (b : Blk) : List Blk → Bool
  | c :: _ => !(b.isList && c.begins)
  | [] => true

mutual
/-- Blocks that can be written. -/
def Blk.Ok : Blk → Prop
  | .para is => ParaOk is
  | .brk => True
  | .code n lang ls => 3 ≤ n ∧ (∀ c ∈ lang, isWs c = false ∧ c ≠ c! '`') ∧ (lang.head? = some (c! '=') → ∀ l, ls.getLast? = some l → ∃ c, l.getLast? = some c ∧ isWs c = false)
      ∧ ∀ l ∈ ls, c! '\n' ∉ l ∧ Block.closesFence (c! '`') n (l ++ [c! '\n']) = false
  | .quote bs => bs ≠ [] ∧ BlksOk bs
  | .div n cls bs => 3 ≤ n ∧ (∀ c ∈ cls, Attr.isName c = true) ∧ BlksOk bs ∧ ∀ b ∈ bs, b.fence < n
  | .list lbs tight items => items ≠ [] ∧ lbs.length = items.length ∧ (∀ lb ∈ lbs, lb.Ok ∧ ∀ lb0, lbs.head? = some lb0 → lb0.like lb) ∧ GapsOk tight items
      ∧ ItemsOk items
  | .foot label bs => NoteLabel label ∧ startsPara bs = true ∧ BlksOk bs ∧ endsList bs = false
  | .table cap ls => (ls ≠ [] ∧ ∀ l ∈ ls, l.Ok) ∧ (cap = [] ∨ TitleOk cap)
  | .attr w is b => (∀ c ∈ w, isWs c = true) ∧ Attr.WellSeparated is ∧ c! '\n' ∉ Attr.writeAttrs w is ∧ b.Ok
/-- Blocks that can be written one after the other. -/
def BlksOk : List Blk → Prop
  | [] => True
  | b :: bs => b.Ok ∧ apart b bs = true ∧ BlksOk bs
/-- List items that can be written: they begin with a paragraph. -/
def ItemsOk : List (List Blk) → Prop
  | [] => True
  | it :: its => startsPara it = true ∧ BlksOk it ∧ ItemsOk its
end

end Jotdown.Round
