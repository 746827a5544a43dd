import Verif.Model.Html
import Verif.Spec.Footnotes
/-! # Specification: the HTML of a tree of containers

What each container and each other event is in HTML, how elements are laid out on lines, and the list of notes at the end. -/
namespace Jotdown.Html
open Jotdown

/-- Events as a tree. -/
inductive Node
  | elem (c : Container) (attrs : Attr.Attributes) (kids : List Node)
  | leaf (e : Event)
  deriving Inhabited

mutual
/-- The events of a tree. -/
def Node.events : Node → List Event
  | .elem c attrs kids => .start c attrs :: (nodeEvents kids ++ [.end c])
  | .leaf e => [e]
def nodeEvents : List Node → List Event
  | [] => []
  | n :: ns => n.events ++ nodeEvents ns
end

/-! ## Text and attributes -/

/-- Text with the characters special in HTML as entities. -/
def escText (s : Bytes) : Bytes :=
  s.flatMap (fun c => if c = c! '<' then b! "&lt;" else if c = c! '>' then b! "&gt;" else if c = c! '&' then b! "&amp;" else [c])

/-- An attribute value, where quotes are special too. -/
def escValue (s : Bytes) : Bytes :=
  s.flatMap (fun c => if c = c! '<' then b! "&lt;" else if c = c! '>' then b! "&gt;" else if c = c! '&' then b! "&amp;"
    else if c = c! '"' then b! "&quot;" else [c])

/-- One attribute; the value is in HTML already. -/
def attrHtml (key value : Bytes) : Bytes := b! " " ++ key ++ b! "=\"" ++ value ++ b! "\""

/-- The class an element has by itself. -/
def ownClass : Container → Bytes
  | .list (.task _) _ => b! "task-list"
  | .math false => b! "math inline"
  | .math true => b! "math display"
  | .div cls => cls
  | _ => []

/-- The identifier an element has by itself: headings that are not in a section of their own have one, otherwise the section has it. -/
def ownId : Container → Option Bytes
  | .heading _ false id => some id
  | .section id => some id
  | _ => none

/-- Attributes given in the document; the class an element has by itself is added to other classes. -/
def givenHtml (c : Container) : List (Bytes × Bytes) → Bytes
  | [] => []
  | (k, v) :: rest =>
    attrHtml k (escValue (Attr.display v) ++ if k = b! "class" ∧ ownClass c ≠ [] then b! " " ++ escValue (ownClass c) else [])
    ++ givenHtml c rest

/-- All attributes other than those part of the tag name. -/
def attributesHtml (c : Container) (attrs : Attr.Attributes) : Bytes :=
  let given := Attr.uniquePairs attrs
  givenHtml c given
  ++ (match ownId c with
    | some id => if b! "id" ∈ given.map (·.1) then [] else attrHtml (b! "id") (escValue id)
    | none => [])
  ++ (if ownClass c = [] ∨ b! "class" ∈ given.map (·.1) then [] else attrHtml (b! "class") (escValue (ownClass c)))

/-! ## Elements -/

/-- The name of an element. -/
def elemName : Container → Bytes
  | .blockquote => b! "blockquote"
  | .list (.ordered ..) _ => b! "ol"
  | .list .. => b! "ul"
  | .listItem | .taskListItem _ => b! "li"
  | .descriptionList => b! "dl"
  | .descriptionDetails => b! "dd"
  | .descriptionTerm => b! "dt"
  | .table => b! "table"
  | .tableRow _ => b! "tr"
  | .tableCell _ head => if head then b! "th" else b! "td"
  | .caption => b! "caption"
  | .section _ => b! "section"
  | .div _ => b! "div"
  | .paragraph => b! "p"
  | .heading level _ _ => b! "h" ++ decimal level
  | .span | .math _ => b! "span"
  | .link .. => b! "a"
  | .verbatim => b! "code"
  | .subscript => b! "sub"
  | .superscript => b! "sup"
  | .insert => b! "ins"
  | .delete => b! "del"
  | .strong => b! "strong"
  | .emphasis => b! "em"
  | .mark => b! "mark"
  | .codeBlock _ => b! "pre"
  | _ => []

/-- Attributes that come first: the numbering of a list and the target of a link (none if it is not known). -/
def leadHtml : Container → Bytes
  | .list (.ordered n _ start) _ =>
    (if 1 < start then attrHtml (b! "start") (decimal start) else [])
    ++ (match n with
      | .decimal => []
      | .alphaLower => attrHtml (b! "type") (b! "a")
      | .alphaUpper => attrHtml (b! "type") (b! "A")
      | .romanLower => attrHtml (b! "type") (b! "i")
      | .romanUpper => attrHtml (b! "type") (b! "I"))
  | .link dst ty =>
    if ty = .span .unresolved then []
    else attrHtml (b! "href") ((if ty = .email then b! "mailto:" else []) ++ escValue dst)
  | _ => []

/-- Attributes that come last: the alignment of a cell. -/
def trailHtml : Container → Bytes
  | .tableCell .left _ => attrHtml (b! "style") (b! "text-align: left;")
  | .tableCell .center _ => attrHtml (b! "style") (b! "text-align: center;")
  | .tableCell .right _ => attrHtml (b! "style") (b! "text-align: right;")
  | _ => []

/-- The start tag. -/
def startTag (c : Container) (attrs : Attr.Attributes) : Bytes :=
  b! "<" ++ elemName c ++ leadHtml c ++ attributesHtml c attrs ++ trailHtml c ++ b! ">"

/-- The end tag. -/
def endTag (c : Container) : Bytes := b! "</" ++ elemName c ++ b! ">"

/-- What is written at the start of the content of an element; `lay` is the start of a line in it. -/
def innerStart (lay : Bytes) : Container → Bytes
  | .codeBlock lang => if lang = [] then b! "<code>" else b! "<code class=\"language-" ++ escValue lang ++ b! "\">"
  | .math false => b! "\\("
  | .math true => b! "\\["
  | .taskListItem false => lay ++ b! "<input disabled=\"\" type=\"checkbox\"/>"
  | .taskListItem true => lay ++ b! "<input disabled=\"\" type=\"checkbox\" checked=\"\"/>"
  | _ => []

/-- What is written at the end of the content of an element. -/
def innerEnd : Container → Bytes
  | .codeBlock _ => b! "</code>"
  | .math false => b! "\\)"
  | .math true => b! "\\]"
  | _ => []

/-! ## Layout -/

/-- The start of a line at depth `d`: nothing if lines are not kept apart. -/
def layIndent (i : Option Indentation) (d : Nat) : Bytes :=
  match i with
  | some i => (List.replicate d i.string).flatten
  | none => []

/-- A new line; the first line of the output is there already. -/
def layLine (i : Option Indentation) (first : Bool) (d : Nat) : Bytes :=
  (match i with
    | some _ => if first then [] else b! "\n"
    | none => [])
  ++ layIndent i d

/-! ## References to footnotes -/

/-- The number of a note: the place of its label in the list `Ls` of the labels of all notes. -/
def noteNumber (Ls : List Bytes) (l : Bytes) : Nat := (Ls.takeWhile (fun x => x != l)).length + 1

/-- A reference to note number `n`. -/
def refHtml (n : Nat) : Bytes :=
  b! "<a id=\"fnref" ++ decimal n ++ b! "\" href=\"#fn" ++ decimal n ++ b! "\" role=\"doc-noteref\"><sup>" ++ decimal n ++ b! "</sup></a>"

/-! ## Trees -/

/-- The HTML of an event that is not the start or end of a container; `Ls` are the labels of the notes. -/
def leafHtml (i : Option Indentation) (Ls : List Bytes) (first : Bool) (d : Nat) : Event → Bytes
  | .str s => escText s
  | .footnoteReference l => refHtml (noteNumber Ls l)
  | .symbol s => b! ":" ++ escText s ++ b! ":"
  | .leftSingleQuote => b! "‘"
  | .rightSingleQuote => b! "’"
  | .leftDoubleQuote => b! "“"
  | .rightDoubleQuote => b! "”"
  | .ellipsis => b! "…"
  | .enDash => b! "–"
  | .emDash => b! "—"
  | .nonBreakingSpace => b! "&nbsp;"
  | .hardbreak => b! "<br>" ++ layLine i first d
  | .softbreak => b! "\n" ++ layIndent i d
  | .thematicBreak attrs => layLine i first d ++ b! "<hr" ++ givenHtml .document (Attr.uniquePairs attrs) ++ b! ">"
  | _ => []

mutual
/-- The text of an image, in its `alt` attribute: the text of its content without markup. -/
def Node.alt (i : Option Indentation) (d : Nat) : Node → Bytes
  | .leaf (.str s) => escValue s
  | .leaf (.footnoteReference _) => []
  | .leaf e => leafHtml i [] false d e
  | .elem _ _ kids => nodeAlts i d kids
def nodeAlts (i : Option Indentation) (d : Nat) : List Node → Bytes
  | [] => []
  | n :: ns => n.alt i d ++ nodeAlts i d ns
end

/-- The text of raw content. -/
def nodeRaw : List Node → Bytes
  | .leaf (.str s) :: ns => s ++ nodeRaw ns
  | _ :: ns => nodeRaw ns
  | [] => []

/-- Link definitions are not in the output, and footnotes only at the end of it. -/
def Node.hidden : Node → Bool
  | .elem (.linkDefinition _) _ _ | .elem (.footnote _) _ _ => true
  | _ => false

mutual
/-- The HTML of a tree, at depth `d` and in a tight list or not. -/
def Node.html (i : Option Indentation) (Ls : List Bytes) (first tight : Bool) (d : Nat) : Node → Bytes
  | .leaf e => leafHtml i Ls first d e
  | .elem c attrs kids =>
    match c with
    | .linkDefinition _ | .footnote _ => []
    | .rawBlock f => layLine i first d ++ if f = b! "html" then nodeRaw kids else []
    | .rawInline f => if f = b! "html" then nodeRaw kids else []
    | .image src _ =>
      b! "<img" ++ attributesHtml c attrs ++ attrHtml (b! "alt") (nodeAlts i d kids)
      ++ (if src = [] then [] else attrHtml (b! "src") (escValue src)) ++ b! ">"
    | .paragraph =>
      layLine i first d ++ if tight then nodeHtml i Ls false tight d kids else startTag c attrs ++ nodeHtml i Ls false tight d kids ++ endTag c
    | .list _ t => layLine i first d ++ startTag c attrs ++ nodeHtml i Ls false t (d + 1) kids ++ layLine i false d ++ endTag c
    | _ =>
      if isBlockContainer c then
        layLine i first d ++ startTag c attrs ++ innerStart (layLine i first (d + 1)) c ++ nodeHtml i Ls false tight (d + 1) kids ++ layLine i false d ++ endTag c
      else
        (if isBlock c then layLine i first d else []) ++ startTag c attrs ++ innerStart [] c ++ nodeHtml i Ls false tight d kids ++ innerEnd c ++ endTag c
/-- The HTML of a sequence. -/
def nodeHtml (i : Option Indentation) (Ls : List Bytes) (first tight : Bool) (d : Nat) : List Node → Bytes
  | [] => []
  | n :: ns => n.html i Ls first tight d ++ nodeHtml i Ls (first && n.hidden) tight d ns
end

/-! ## Footnotes -/

mutual
/-- A tree without the footnotes in it. -/
def Node.withoutNotes : Node → List Node
  | .leaf e => [.leaf e]
  | .elem (.footnote _) _ _ => []
  | .elem c attrs kids => [.elem c attrs (withoutNotes kids)]
def withoutNotes : List Node → List Node
  | [] => []
  | n :: ns => n.withoutNotes ++ withoutNotes ns
end

mutual
/-- The footnotes in a tree, in the order in which they end; those in a footnote are footnotes of their own. -/
def Node.notes : Node → List (Bytes × List Node)
  | .leaf _ => []
  | .elem (.footnote l) _ kids => nodeNotes kids ++ [(l, withoutNotes kids)]
  | .elem _ _ kids => nodeNotes kids
def nodeNotes : List Node → List (Bytes × List Node)
  | [] => []
  | n :: ns => n.notes ++ nodeNotes ns
end

/-- The content of the note with a label: the last footnote with it, nothing if there is none. -/
def noteContent (notes : List (Bytes × List Node)) (l : Bytes) : List Node :=
  (((notes.filter (fun p => p.1 == l)).getLast?).map (·.2)).getD []

mutual
/-- The labels referenced in a tree, outside link definitions and footnotes. -/
def Node.refs : Node → List Bytes
  | .leaf (.footnoteReference l) => [l]
  | .leaf _ => []
  | .elem (.footnote _) _ _ | .elem (.linkDefinition _) _ _ => []
  | .elem _ _ kids => nodeRefs kids
def nodeRefs : List Node → List Bytes
  | [] => []
  | n :: ns => n.refs ++ nodeRefs ns
end

/-- `Ls` are the labels of the notes of a document in order: those referenced outside notes, then those first referenced
in the first note, and so on. -/
def TreeNotes (ns : List Node) (Ls : List Bytes) : Prop :=
  NotesFrom (fun l => nodeRefs (noteContent (nodeNotes ns) l)) 0 (distinct (nodeRefs ns)) Ls

/-- Events that leave no trace in a note. -/
def Node.silent : Node → Bool
  | .leaf .blankline | .leaf .escape => true
  | _ => false

/-- A link from note number `n` back to the reference, as raw HTML. -/
def backlink (n : Nat) : Node :=
  .elem (.rawInline (b! "html")) [] [.leaf (.str (b! "<a href=\"#fnref" ++ decimal n ++ b! "\" role=\"doc-backlink\">\u21A9\uFE0E</a>"))]

/-- A note with the link at the end of its last paragraph, or in a paragraph of its own if it does not end with one. -/
def withLink (link : Node) : List Node → List Node
  | [] => [.elem .paragraph [] [link]]
  | n :: ns =>
    if ns.all Node.silent then
      match n with
      | .elem .paragraph attrs kids => .elem .paragraph attrs (kids ++ [link]) :: ns
      | _ => n :: (ns ++ [.elem .paragraph [] [link]])
    else n :: withLink link ns

/-- Note number `n`. -/
def noteHtml (i : Option Indentation) (Ls : List Bytes) (d n : Nat) (content : List Node) : Bytes :=
  layLine i false d ++ b! "<li id=\"fn" ++ decimal n ++ b! "\">" ++ nodeHtml i Ls false false d (withLink (backlink n) content)
  ++ layLine i false d ++ b! "</li>"

/-- The notes with the given labels, numbered from `n + 1`. -/
def notesHtml (i : Option Indentation) (Ls : List Bytes) (d : Nat) (notes : List (Bytes × List Node)) (n : Nat) : List Bytes → Bytes
  | [] => []
  | l :: ls => noteHtml i Ls d (n + 1) (noteContent notes l) ++ notesHtml i Ls d notes (n + 1) ls

/-- The list of all notes, if there are any. -/
def endnotesHtml (i : Option Indentation) (Ls : List Bytes) (d : Nat) (notes : List (Bytes × List Node)) : Bytes :=
  if Ls = [] then []
  else layLine i false d ++ b! "<section role=\"doc-endnotes\">" ++ layLine i false d ++ b! "<hr>" ++ layLine i false d ++ b! "<ol>"
    ++ notesHtml i Ls d notes 0 Ls ++ layLine i false d ++ b! "</ol>" ++ layLine i false d ++ b! "</section>"

/-- The depth at which the output starts. -/
def startDepth (i : Option Indentation) : Nat := match i with | some i => i.initialLevel | none => 0

/-- The HTML of a document with the given content, where `Ls` are the labels of the notes. -/
def documentHtml (i : Option Indentation) (Ls : List Bytes) (ns : List Node) : Bytes :=
  nodeHtml i Ls true false (startDepth i) ns ++ endnotesHtml i Ls (startDepth i) (nodeNotes ns)
  ++ (match i with | some _ => b! "\n" | none => [])

/-! ## Trees that are covered -/

/-- Nothing to escape. -/
def inert (s : Bytes) : Bool := s.all (fun c => c != c! '<' && c != c! '>' && c != c! '&' && c != c! '"')

/-- Events other than starts and ends. -/
def Event.simple : Event → Bool
  | .start .. | .end _ => false
  | .symbol s => inert s
  | _ => true

/-- The class of a div has nothing to escape; task lists and math, which have a class of their own, are not given another one. -/
def classOk (attrs : Attr.Attributes) : Container → Bool
  | .div cls => inert cls
  | .list (.task _) _ | .math _ => !((Attr.uniquePairs attrs).map (·.1)).contains (b! "class")
  | _ => true

mutual
/-- What an image contains: inline elements (raw content counts as text). -/
def Node.imageOk : Node → Bool
  | .leaf e => Event.simple e && (match e with | .thematicBreak _ => false | _ => true)
  | .elem c _ kids => !isBlock c && c != .document && nodesImageOk kids
def nodesImageOk : List Node → Bool
  | [] => true
  | n :: ns => n.imageOk && nodesImageOk ns
end

/-- A text. -/
def Node.isStr : Node → Bool
  | .leaf (.str _) => true
  | _ => false

mutual
/-- What a link definition contains: no paragraph, no footnote, no other definition, no document. -/
def Node.definitionOk : Node → Bool
  | .leaf (.start ..) | .leaf (.end _) => false
  | .leaf _ => true
  | .elem (.footnote _) _ _ | .elem (.linkDefinition _) _ _ | .elem .paragraph _ _ | .elem .document _ _ => false
  | .elem _ _ kids => nodesDefinitionOk kids
def nodesDefinitionOk : List Node → Bool
  | [] => true
  | n :: ns => n.definitionOk && nodesDefinitionOk ns
end

mutual
/-- Trees without a document in them. -/
def Node.covered : Node → Bool
  | .leaf e => Event.simple e
  | .elem c attrs kids =>
    classOk attrs c &&
    match c with
    | .document => false
    | .linkDefinition _ => nodesDefinitionOk kids
    | .rawBlock _ | .rawInline _ => kids.all Node.isStr
    | .image .. => nodesImageOk kids
    | _ => nodesCovered kids
def nodesCovered : List Node → Bool
  | [] => true
  | n :: ns => n.covered && nodesCovered ns
end

end Jotdown.Html
