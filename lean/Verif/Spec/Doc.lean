import Verif.Model.Parser
import Verif.Spec.Events
/-! # Specification: the events of a document from its blocks

The block parser yields a flat list of block events: entries and exits of nodes, lines of inline content,
blank lines, thematic breaks and lines of attributes. This specification tells which events a document
with these block events has: what the nodes are called, where attributes go, and that the inline content of each
leaf is what an inline parser reads from the lines of this leaf alone. -/
namespace Jotdown
open Jotdown

/-! ## Names of nodes -/

/-- The container for a list. Bullets other than `-`, `*` and `+` do not occur. -/
def listName (tight : Bool) : Block.ListType → Container
  | .description => .descriptionList
  | .unordered c => .list (.unordered (if c = c! '-' then .dash else if c = c! '*' then .star else .plus)) tight
  | .task c => .list (.task (if c = c! '-' then .dash else if c = c! '*' then .star else .plus)) tight
  | .ordered n s => .list (.ordered n.numbering s n.value) tight

/-- The container for a node; `ids` are the ids of the headings by their location, `head` tells whether the
innermost row is a head row. -/
def nodeName (ids : Nat → Bytes) (head : Bool) : Block.Node → Container
  | .container .document => .document
  | .container .blockquote => .blockquote
  | .container (.div cls) => .div cls
  | .container (.footnote label) => .footnote label
  | .container (.list ty tight) => listName tight ty
  | .container (.listItem (.task checked)) => .taskListItem checked
  | .container (.listItem .description) => .descriptionDetails
  | .container (.listItem .list) => .listItem
  | .container .table => .table
  | .container (.tableRow h) => .tableRow h
  | .container (.section pos) => .section (ids pos)
  | .leaf .paragraph => .paragraph
  | .leaf (.heading level hasSection pos) => .heading level hasSection (ids pos)
  | .leaf .descriptionTerm => .descriptionTerm
  | .leaf (.codeBlock lang) => if lang.head? = some (c! '=') then .rawBlock lang.tail else .codeBlock lang
  | .leaf (.tableCell a) => .tableCell a head
  | .leaf .caption => .caption
  | .leaf (.linkDefinition label) => .linkDefinition label

/-! ## Attributes of blocks -/

/-- The text of a range. -/
def textAt (src : Bytes) (sp : Span) : Bytes := (src.drop sp.start).take (sp.stop - sp.start)

/-- The attributes in a range. -/
def attrsAt (src : Bytes) (sp : Span) : Attr.Attributes :=
  match Attr.tryFrom (textAt src sp) with
  | .ok (.ok a) => a
  | _ => []

/-- The attributes in several ranges, in order. -/
def attrsIn (src : Bytes) (sps : List Span) : Attr.Attributes := (sps.map (attrsAt src)).flatten

/-- A range that is extended to the left to include the ranges before it. -/
def cover (sps : List Span) (sp : Span) : Span := ⟨(sps.head?.getD sp).start, sp.stop⟩

/-- Attributes not followed by a block. -/
def flush (src : Bytes) : List Span → List (Event × Span)
  | [] => []
  | sp :: sps => [(.attributes (attrsIn src (sp :: sps)), cover (sp :: sps) ((sp :: sps).getLast (by simp)))]

/-! ## Inline content -/

/-- The events that the inline parser can emit now. -/
inductive Reads : Parser → List (Event × Span) → Parser → Prop
  | none {p p'} : p.inline = .ok (p', none) → Reads p [] p'
  | some {p p' p'' e es} : p.inline = .ok (p', some e) → Reads p' es p'' → Reads p (e :: es) p''

/-- The inline parser is given the lines one by one. -/
inductive ReadsLines : Parser → List Span → List (Event × Span) → Prop
  | nil {p} : ReadsLines p [] []
  | cons {p ip p' l ls es es'} : p.inlineParser.feedLine l ls.isEmpty = .ok ip → Reads { p with inlineParser := ip } es p' →
      ReadsLines p' ls es' → ReadsLines p (l :: ls) (es ++ es')

/-- A parser without blocks that has not read anything. -/
def freshParser (src : Bytes) (pre : PrePass) : Parser :=
  { src := src, blocks := [], prePass := pre, inlineParser := Inline.IP.new src }

/-- The texts of the lines that are not empty. -/
def rawLines (src : Bytes) (ls : List Span) : List (Event × Span) :=
  (ls.filter (fun l => l.start != l.stop)).map (fun l => (.str (textAt src l), l))

/-- Leaves whose lines are not parsed. -/
def isRawLeaf : Block.Leaf → Bool
  | .codeBlock _ | .linkDefinition _ => true
  | _ => false

/-- The content of a leaf with the given lines. -/
inductive Content (src : Bytes) (pre : PrePass) (l : Block.Leaf) (ls : List Span) : List (Event × Span) → Prop
  | raw : isRawLeaf l = true → Content src pre l ls (rawLines src ls)
  | parsed {es} : isRawLeaf l = false → ReadsLines (freshParser src pre) ls es → Content src pre l ls es

/-! ## Documents -/

/-- The ids of the headings by location. -/
def idAt (pre : PrePass) (pos : Nat) : Bytes := (pre.headingIdByLocation pos).getD []

/-- The innermost row after entering a container. -/
def rowIn (head : Bool) : Block.Container → Bool
  | .tableRow h => h
  | _ => head

/-- The events for block events, if `head` tells about the last row and `pend` are the ranges of the attributes
since the last block, blank line, or end of a container: attributes are attached to the next block or
thematic break, whose range they extend; before a blank line and before the end of a container they are emitted on their own. -/
inductive DocEvents (src : Bytes) (pre : PrePass) : Bool → List Span → List Block.Event → List (Event × Span) → Prop
  | nil {h} : DocEvents src pre h [] [] []
  | stale {h pend e es evs} : e.kind = .stale → DocEvents src pre h pend es evs → DocEvents src pre h pend (e :: es) evs
  | attributes {h pend e es evs} : e.kind = .atom .attributes → DocEvents src pre h (pend ++ [e.span]) es evs →
      DocEvents src pre h pend (e :: es) evs
  | blankline {h pend e es evs} : e.kind = .atom .blankline → DocEvents src pre h [] es evs →
      DocEvents src pre h pend (e :: es) (flush src pend ++ (.blankline, e.span) :: evs)
  | thematicBreak {h pend e es evs} : e.kind = .atom .thematicBreak → DocEvents src pre h [] es evs →
      DocEvents src pre h pend (e :: es) ((.thematicBreak (attrsIn src pend), cover pend e.span) :: evs)
  | enter {h pend e c es evs} : e.kind = .enter (.container c) → DocEvents src pre (rowIn h c) [] es evs →
      DocEvents src pre h pend (e :: es)
        ((.start (nodeName (idAt pre) h (.container c)) (attrsIn src pend), cover pend e.span) :: evs)
  | exit {h pend e c es evs} : e.kind = .exit (.container c) → DocEvents src pre h [] es evs →
      DocEvents src pre h pend (e :: es) (flush src pend ++ (.end (nodeName (idAt pre) h (.container c)), e.span) :: evs)
  | leaf {h pend e l inl x es cs evs} : e.kind = .enter (.leaf l) → (∀ i ∈ inl, i.kind = .inline) → x.kind = .exit (.leaf l) →
      Content src pre l (inl.map (·.span)) cs → DocEvents src pre h [] es evs →
      DocEvents src pre h pend (e :: inl ++ x :: es)
        ((.start (nodeName (idAt pre) h (.leaf l)) (attrsIn src pend), cover pend e.span) ::
          (cs ++ (.end (nodeName (idAt pre) h (.leaf l)), x.span) :: evs))

/-! ## All attributes of blocks -/

/-- The ranges of the attributes among the block events. -/
def attributeLines (es : List Block.Event) : List Span := (es.filter (fun e => e.kind == .atom .attributes)).map (·.span)

/-- Blocks that have no other blocks inside. -/
def isLeafBlock : Container → Bool
  | .paragraph | .heading .. | .tableCell .. | .caption | .descriptionTerm | .linkDefinition _ | .rawBlock _ | .codeBlock _ => true
  | _ => false

/-- The attributes of the starts of blocks and of thematic breaks, and the attributes between blocks; `inLeaf` tells
whether the events are in a block that has no other blocks inside. -/
def attributesOfBlocks (inLeaf : Bool) : List Event → Attr.Attributes
  | [] => []
  | .start c a :: es => if isInline c then attributesOfBlocks inLeaf es else a ++ attributesOfBlocks (isLeafBlock c) es
  | .end c :: es => if isInline c then attributesOfBlocks inLeaf es else attributesOfBlocks false es
  | .thematicBreak a :: es => a ++ attributesOfBlocks inLeaf es
  | .attributes a :: es => if inLeaf then attributesOfBlocks inLeaf es else a ++ attributesOfBlocks inLeaf es
  | _ :: es => attributesOfBlocks inLeaf es

end Jotdown
