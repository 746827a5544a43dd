import Verif.Model.Parser
/-! # Model of src/html.rs and the `Render` trait in src/lib.rs -/
namespace Jotdown.Html
open Jotdown

/-- The sequence of write calls a renderer makes. Every write call in src/html.rs is followed by
`?` (or returned), so a failing writer stops the sequence; see `Sink` below. The pieces of a
`write!` with arguments are separate calls; their exact number is an artefact of `core::fmt`. -/
abbrev Out := List Bytes

/-! ## Containers -/

/-- src/lib.rs:1850-1887 `is_block` -/
def isBlock : Container → Bool
  | .document | .span | .link .. | .image .. | .verbatim | .math _ | .rawInline _ | .subscript
  | .superscript | .insert | .delete | .strong | .emphasis | .mark => false
  | _ => true

/-- src/lib.rs:1891-1928 `is_block_container` -/
def isBlockContainer : Container → Bool
  | .blockquote | .list .. | .listItem | .taskListItem _ | .descriptionList | .descriptionDetails
  | .footnote _ | .table | .tableRow _ | .section _ | .div _ => true
  | _ => false

/-- `matches!(c, Container::Image(..))` (src/html.rs:388, 568) -/
def isImage : Container → Bool
  | .image .. => true
  | _ => false

/-! ## Escaping -/

/-- src/html.rs:789-795: the entity for a character. -/
def entity (quotes : Bool) (c : UInt8) : Option Bytes :=
  if c = c! '<' then some (b! "&lt;")
  else if c = c! '>' then some (b! "&gt;")
  else if c = c! '&' then some (b! "&amp;")
  else if c = c! '"' ∧ quotes then some (b! "&quot;")
  else none

/-- src/html.rs:784-807 `write_escape`; `acc` is the text before the next entity. -/
def escapeLoop (quotes : Bool) (acc : Bytes) : Bytes → Out
  | [] => [acc]
  | c :: cs =>
    match entity quotes c with
    | some e => acc :: e :: escapeLoop quotes [] cs
    | none => escapeLoop quotes (acc ++ [c]) cs

/-- src/html.rs:770-775 -/
def writeText (s : Bytes) : Out := escapeLoop false [] s
/-- src/html.rs:777-782 -/
def writeAttr (s : Bytes) : Out := escapeLoop true [] s

/-! ## State -/

/-- src/html.rs:274-279 -/
inductive Raw
  | none | html | other
  deriving DecidableEq, Repr, Inhabited

/-- src/html.rs:40-139 -/
structure Indentation where
  string : Bytes
  initialLevel : Nat
  deriving DecidableEq, Repr, Inhabited

/-- src/html.rs:815-824. `open_` has its top first; `events` is the map from label to events. -/
structure Footnotes where
  open_ : List (Bytes × List Event) := []
  references : List Bytes := []
  events : List (Bytes × List Event) := []
  number : Nat := 0
  deriving DecidableEq, Repr, Inhabited

/-- src/html.rs:285-294; `list_tightness` has its top first. -/
structure Renderer where
  indent : Option Indentation
  depth : Nat
  raw : Raw := .none
  imgAltText : Nat := 0
  listTightness : List Bool := []
  firstLine : Bool := true
  ignore : Bool := false
  footnotes : Footnotes := {}
  deriving DecidableEq, Repr, Inhabited

/-- src/html.rs:297-313 -/
def Renderer.new (indent : Option Indentation) : Renderer :=
  { indent := indent, depth := match indent with | some i => i.initialLevel | none => 0 }

/-- src/html.rs:173-175 -/
def Renderer.minified : Renderer := .new none
/-- src/html.rs:214-216 -/
def Renderer.indented (i : Indentation) : Renderer := .new (some i)
/-- src/html.rs:256-261 -/
def Renderer.default : Renderer := .new (some ⟨[], 0⟩)

/-! ## Footnotes -/

/-- src/html.rs:833-835 -/
def Footnotes.inEpilogue (f : Footnotes) : Bool := 0 < f.number

/-- `Iterator::position` for a label. (used at src/html.rs:838-849) -/
def labelPos (label : Bytes) : List Bytes → Option Nat
  | [] => none
  | l :: ls => if l = label then some 0 else (labelPos label ls).map (· + 1)

/-- src/html.rs:838-849 -/
def Footnotes.reference (f : Footnotes) (label : Bytes) : Nat × Footnotes :=
  match labelPos label f.references with
  | some i => (i + 1, f)
  | none => (f.references.length + 1, { f with references := f.references ++ [label] })

/-- `Map::insert` (used at src/html.rs:862-865) -/
def mapInsert (m : List (Bytes × List Event)) (k : Bytes) (v : List Event) : List (Bytes × List Event) :=
  (k, v) :: m.filter (fun p => p.1 != k)

/-- src/html.rs:868-877 `Iterator::next` -/
def Footnotes.next (f : Footnotes) : Option ((Nat × Option (List Event)) × Footnotes) :=
  match f.references[f.number]? with
  | none => none
  | some label =>
    some ((f.number + 1, (f.events.find? (fun p => p.1 == label)).map (·.2)),
      { f with number := f.number + 1, events := f.events.filter (fun p => p.1 != label) })

/-! ## Layout -/

/-- src/html.rs:339-351 -/
def Renderer.indentOut (r : Renderer) : Out :=
  match r.indent with
  | some i => if i.string.isEmpty then [] else List.replicate r.depth i.string
  | none => []

/-- src/html.rs:327: `(self.depth as isize + depth_change) as usize` -/
def nextDepth (d : Nat) (change : Int) : Nat :=
  if 0 ≤ (d : Int) + change then ((d : Int) + change).toNat else 2 ^ 64 - (-((d : Int) + change)).toNat

/-- src/html.rs:315-337 -/
def Renderer.block (r : Renderer) (change : Int) : Renderer × Out :=
  match r.indent with
  | none => (r, [])
  | some _ =>
    let nl : Out := if r.firstLine then [] else [b! "\n"]
    let next := nextDepth r.depth change
    let r := if change < 0 then { r with depth := next } else r
    let ind := r.indentOut
    let r := if 0 < change then { r with depth := next } else r
    (r, nl ++ ind)

/-! ## Start tags -/

/-- src/html.rs:405-411 -/
def listType : Numbering → Option Bytes
  | .decimal => none
  | .alphaLower => some (b! "a")
  | .alphaUpper => some (b! "A")
  | .romanLower => some (b! "i")
  | .romanUpper => some (b! "I")

/-- src/html.rs:394-416: opening tag of a list. -/
def listTag : ListKind → Out
  | .unordered _ | .task _ => [b! "<ul"]
  | .ordered n _ start =>
    [b! "<ol"] ++ (if 1 < start then [b! " start=\"", decimal start, b! "\""] else [])
    ++ (match listType n with
      | some ty => [b! " type=\"", ty, b! "\""]
      | none => [])

/-- src/html.rs:440-451 -/
def linkTag (dst : Bytes) (ty : LinkType) : Out :=
  if ty = .span .unresolved then [b! "<a"]
  else [b! "<a href=\""] ++ (if ty = .email then [b! "mailto:"] else []) ++ writeAttr dst ++ [b! "\""]

/-- src/html.rs:391-477: what is written for the tag name, `none` if nothing further is written for
the start event. -/
def Renderer.openTag (r : Renderer) (c : Container) : R (Renderer × Option Out) :=
  match c with
  | .document => .ok (r, none)
  | .blockquote => .ok (r, some [b! "<blockquote"])
  | .list kind tight => .ok ({ r with listTightness := tight :: r.listTightness }, some (listTag kind))
  | .listItem | .taskListItem _ => .ok (r, some [b! "<li"])
  | .descriptionList => .ok (r, some [b! "<dl"])
  | .descriptionDetails => .ok (r, some [b! "<dd"])
  | .footnote _ => .error .panic
  | .table => .ok (r, some [b! "<table"])
  | .tableRow _ => .ok (r, some [b! "<tr"])
  | .section _ => .ok (r, some [b! "<section"])
  | .div _ => .ok (r, some [b! "<div"])
  | .paragraph => .ok (r, if r.listTightness.head? = some true then none else some [b! "<p"])
  | .heading level _ _ => .ok (r, some [b! "<h", decimal level])
  | .tableCell _ false => .ok (r, some [b! "<td"])
  | .tableCell _ true => .ok (r, some [b! "<th"])
  | .caption => .ok (r, some [b! "<caption"])
  | .descriptionTerm => .ok (r, some [b! "<dt"])
  | .codeBlock _ => .ok (r, some [b! "<pre"])
  | .span | .math _ => .ok (r, some [b! "<span"])
  | .link dst ty => .ok (r, some (linkTag dst ty))
  | .image .. =>
    .ok ({ r with imgAltText := r.imgAltText + 1 },
      if r.imgAltText = 0 then some [b! "<img"] else none)
  | .verbatim => .ok (r, some [b! "<code"])
  | .rawBlock f | .rawInline f =>
    .ok ({ r with raw := if f = b! "html" then .html else .other }, none)
  | .subscript => .ok (r, some [b! "<sub"])
  | .superscript => .ok (r, some [b! "<sup"])
  | .insert => .ok (r, some [b! "<ins"])
  | .delete => .ok (r, some [b! "<del"])
  | .strong => .ok (r, some [b! "<strong"])
  | .emphasis => .ok (r, some [b! "<em"])
  | .mark => .ok (r, some [b! "<mark"])
  | .linkDefinition _ => .ok (r, none)

/-- src/html.rs:747-756: class implied by the container kind. -/
def impliedClass : Container → Option Bytes
  | .list (.task _) _ => some (b! "task-list")
  | .math false => some (b! "math inline")
  | .math true => some (b! "math display")
  | _ => none

/-- src/html.rs:743-768 `write_class` -/
def writeClass (c : Container) (first : Bool) : Out :=
  (match impliedClass c with | some cls => [cls] | none => [])
  ++ (match c with
    | .div cls =>
      if cls.isEmpty then []
      else (if first || (impliedClass c).isSome then [b! " "] else []) ++ [cls]
    | _ => [])

/-- src/html.rs:481-493: the attributes of a start tag. -/
def attrsOut (c : Container) : List (Bytes × Bytes) → Out
  | [] => []
  | (a, v) :: rest =>
    [b! " ", a, b! "=\""] ++ ((Attr.parts v).map writeAttr).flatten
    ++ (if a = b! "class" then writeClass c true else []) ++ [b! "\""] ++ attrsOut c rest

/-- src/html.rs:495-521: attributes implied by the container. -/
def impliedAttrs (c : Container) (keys : List Bytes) : Out :=
  match c with
  | .heading _ false id | .section id =>
    if keys.contains (b! "id") then [] else [b! " id=\""] ++ writeAttr id ++ [b! "\""]
  | .div cls =>
    if cls.isEmpty || keys.contains (b! "class") then []
    else [b! " class=\""] ++ writeClass c false ++ [b! "\""]
  | .math _ | .list (.task _) _ =>
    if keys.contains (b! "class") then []
    else [b! " class=\""] ++ writeClass c false ++ [b! "\""]
  | _ => []

/-- src/html.rs:527-532 -/
def alignName : Alignment → Bytes
  | .unspecified => []
  | .left => b! "left"
  | .center => b! "center"
  | .right => b! "right"

/-- src/html.rs:523-562: end of the start tag. -/
def Renderer.closeStart (r : Renderer) (c : Container) : Renderer × Out :=
  match c with
  | .tableCell a _ =>
    (r, if a = .unspecified then [b! ">"]
      else [b! " style=\"text-align: ", alignName a, b! ";\">"])
  | .codeBlock language =>
    (r, if language.isEmpty then [b! "><code>"]
      else [b! "><code class=\"language-"] ++ writeAttr language ++ [b! "\">"])
  | .image .. => (r, if r.imgAltText = 1 then [b! " alt=\""] else [])
  | .math display => (r, if display then [b! ">\\["] else [b! ">\\("])
  | .taskListItem checked =>
    ((r.block 0).1, [b! ">"] ++ (r.block 0).2 ++
      [if checked then b! "<input disabled=\"\" type=\"checkbox\" checked=\"\"/>"
       else b! "<input disabled=\"\" type=\"checkbox\"/>"])
  | _ => (r, [b! ">"])

/-- src/html.rs:385-387: the layout before a start tag. -/
def Renderer.startBlock (r : Renderer) (c : Container) : Renderer × Out :=
  if isBlock c then r.block (if isBlockContainer c then 1 else 0) else (r, [])

/-- src/html.rs:481-562: what is written for a start tag whose name part is `o2`. -/
def Renderer.tagRest (r : Renderer) (c : Container) (attrs : Attr.Attributes) (o2 : Out) : Out :=
  o2 ++ attrsOut c (Attr.uniquePairs attrs) ++ impliedAttrs c ((Attr.uniquePairs attrs).map (·.1))
    ++ (r.closeStart c).2

/-- src/html.rs:384-563: a start event. -/
def Renderer.start (r : Renderer) (c : Container) (attrs : Attr.Attributes) : R (Renderer × Out) :=
  if 0 < (r.startBlock c).1.imgAltText && !isImage c then .ok (r.startBlock c)
  else match (r.startBlock c).1.openTag c with
    | .error e => .error e
    | .ok (r', none) => .ok (r', (r.startBlock c).2)
    | .ok (r', some o2) =>
      .ok ({ (r'.closeStart c).1 with firstLine := false },
        (r.startBlock c).2 ++ r'.tagRest c attrs o2)

/-! ## End tags -/

/-- src/html.rs:571-634: what is written at the end of a container other than the document, `none`
for an early return. -/
def Renderer.closeTag (r : Renderer) (c : Container) : R (Renderer × Option Out) :=
  match c with
  | .document => .error .panic
  | .blockquote => .ok (r, some [b! "</blockquote>"])
  | .list kind _ =>
    .ok ({ r with listTightness := r.listTightness.drop 1 },
      some [match kind with | .ordered .. => b! "</ol>" | _ => b! "</ul>"])
  | .listItem | .taskListItem _ => .ok (r, some [b! "</li>"])
  | .descriptionList => .ok (r, some [b! "</dl>"])
  | .descriptionDetails => .ok (r, some [b! "</dd>"])
  | .footnote _ => .error .panic
  | .table => .ok (r, some [b! "</table>"])
  | .tableRow _ => .ok (r, some [b! "</tr>"])
  | .section _ => .ok (r, some [b! "</section>"])
  | .div _ => .ok (r, some [b! "</div>"])
  | .paragraph =>
    if r.listTightness.head? = some true then .ok (r, none)
    else .ok (r, some (if r.footnotes.inEpilogue then [] else [b! "</p>"]))
  | .heading level _ _ => .ok (r, some [b! "</h", decimal level, b! ">"])
  | .tableCell _ false => .ok (r, some [b! "</td>"])
  | .tableCell _ true => .ok (r, some [b! "</th>"])
  | .caption => .ok (r, some [b! "</caption>"])
  | .descriptionTerm => .ok (r, some [b! "</dt>"])
  | .codeBlock _ => .ok (r, some [b! "</code></pre>"])
  | .span => .ok (r, some [b! "</span>"])
  | .link .. => .ok (r, some [b! "</a>"])
  | .image src _ => do
    let n ← csub r.imgAltText 1
    pure ({ r with imgAltText := n }, some (
      if r.imgAltText = 1 then
        (if src.isEmpty then [] else [b! "\" src=\""] ++ writeAttr src) ++ [b! "\">"]
      else []))
  | .verbatim => .ok (r, some [b! "</code>"])
  | .math display => .ok (r, some [if display then b! "\\]</span>" else b! "\\)</span>"])
  | .rawBlock _ | .rawInline _ => .ok ({ r with raw := .none }, some [])
  | .subscript => .ok (r, some [b! "</sub>"])
  | .superscript => .ok (r, some [b! "</sup>"])
  | .insert => .ok (r, some [b! "</ins>"])
  | .delete => .ok (r, some [b! "</del>"])
  | .strong => .ok (r, some [b! "</strong>"])
  | .emphasis => .ok (r, some [b! "</em>"])
  | .mark => .ok (r, some [b! "</mark>"])
  | .linkDefinition _ => .error .panic

/-- src/html.rs:565-567: the layout before an end tag. -/
def Renderer.closeBlock (r : Renderer) (c : Container) : Renderer × Out :=
  if isBlockContainer c then r.block (-1) else (r, [])

/-- src/html.rs:564-635: an end event other than that of the document. -/
def Renderer.close (r : Renderer) (c : Container) : R (Renderer × Out) :=
  if 0 < (r.closeBlock c).1.imgAltText && !isImage c then .ok (r.closeBlock c)
  else match (r.closeBlock c).1.closeTag c with
    | .error e => .error e
    | .ok (r', none) => .ok (r', (r.closeBlock c).2)
    | .ok (r', some o2) => .ok ({ r' with firstLine := false }, (r.closeBlock c).2 ++ o2)

/-! ## Other events -/

/-- src/html.rs:636-641 -/
def Renderer.str (r : Renderer) (s : Bytes) : Out :=
  match r.raw with
  | .none => if 0 < r.imgAltText then writeAttr s else writeText s
  | .html => [s]
  | .other => []

/-- src/html.rs:642-651 -/
def Renderer.footnoteReference (r : Renderer) (label : Bytes) : Renderer × Out :=
  let (n, f) := r.footnotes.reference label
  ({ r with footnotes := f },
    if r.imgAltText = 0 then
      [b! "<a id=\"fnref", decimal n, b! "\" href=\"#fn", decimal n,
        b! "\" role=\"doc-noteref\"><sup>", decimal n, b! "</sup></a>"]
    else [])

/-- src/html.rs:673-677: the attributes of a thematic break. -/
def plainAttrs : List (Bytes × Bytes) → Out
  | [] => []
  | (a, v) :: rest =>
    [b! " ", a, b! "=\""] ++ ((Attr.parts v).map writeAttr).flatten ++ [b! "\""] ++ plainAttrs rest

/-- src/html.rs:383-683: an event that is not filtered out (`filter`) and not the end of the
document. -/
def Renderer.core (r : Renderer) (e : Event) : R (Renderer × Out) :=
  let done (r : Renderer) (o : Out) : R (Renderer × Out) := .ok ({ r with firstLine := false }, o)
  match e with
  | .start c attrs => r.start c attrs
  | .end c => r.close c
  | .str s => done r (r.str s)
  | .footnoteReference label => done (r.footnoteReference label).1 (r.footnoteReference label).2
  | .symbol s => done r [b! ":", s, b! ":"]
  | .leftSingleQuote => done r [b! "‘"]
  | .rightSingleQuote => done r [b! "’"]
  | .leftDoubleQuote => done r [b! "“"]
  | .rightDoubleQuote => done r [b! "”"]
  | .ellipsis => done r [b! "…"]
  | .enDash => done r [b! "–"]
  | .emDash => done r [b! "—"]
  | .nonBreakingSpace => done r [b! "&nbsp;"]
  | .hardbreak => done (r.block 0).1 ([b! "<br>"] ++ (r.block 0).2)
  | .softbreak => done r ([b! "\n"] ++ r.indentOut)
  | .escape | .blankline | .attributes _ => done r []
  | .thematicBreak attrs =>
    done (r.block 0).1 ((r.block 0).2 ++ [b! "<hr"] ++ plainAttrs (Attr.uniquePairs attrs) ++ [b! ">"])

/-- src/html.rs:357-381: footnotes are put aside and link definitions skipped. `some` if the event
is thereby dealt with. -/
def Renderer.filter (r : Renderer) (e : Event) : Option Renderer :=
  match e with
  | .start (.footnote label) _ =>
    some { r with footnotes := { r.footnotes with open_ := (label, []) :: r.footnotes.open_ } }
  | _ =>
    match r.footnotes.open_ with
    | (label, evs) :: rest =>
      match e with
      | .end (.footnote _) =>
        some { r with footnotes := { r.footnotes with
          open_ := rest, events := mapInsert r.footnotes.events label evs } }
      | _ => some { r with footnotes := { r.footnotes with open_ := (label, evs ++ [e]) :: rest } }
    | [] =>
      match e with
      | .start (.linkDefinition _) _ => some { r with ignore := true }
      | .end (.linkDefinition _) => some { r with ignore := false }
      | _ => if r.ignore then some r else none

/-! ## Epilogue -/

/-- src/html.rs:691-696: start of the endnotes. -/
def Renderer.beginNotes (r : Renderer) : Renderer × Out :=
  let r1 := (r.block 0).1
  let r2 := (r1.block 0).1
  ((r2.block 0).1, (r.block 0).2 ++ [b! "<section role=\"doc-endnotes\">"] ++ (r1.block 0).2 ++ [b! "<hr>"]
    ++ (r2.block 0).2 ++ [b! "<ol>"])

/-- src/html.rs:729-732: end of the endnotes. -/
def Renderer.endNotes (r : Renderer) : Renderer × Out :=
  let r1 := (r.block 0).1
  ((r1.block 0).1, (r.block 0).2 ++ [b! "</ol>"] ++ (r1.block 0).2 ++ [b! "</section>"])

/-- src/html.rs:699-700: start of a note. -/
def Renderer.beginNote (r : Renderer) (number : Nat) : Renderer × Out :=
  ((r.block 0).1, (r.block 0).2 ++ [b! "<li id=\"fn", decimal number, b! "\">"])

/-- src/html.rs:715-726: end of a note, with the backlink. -/
def Renderer.endNote (r : Renderer) (number : Nat) (unclosedPara : Bool) : Renderer × Out :=
  let r1 := if unclosedPara then r else (r.block 0).1
  ((r1.block 0).1, (if unclosedPara then [] else (r.block 0).2 ++ [b! "<p>"]) ++ [b! "<a href=\"#fnref", decimal number,
    b! "\" role=\"doc-backlink\">\u21A9\uFE0E</a></p>"] ++ (r1.block 0).2 ++ [b! "</li>"])

/-- src/html.rs:735-737 -/
def Renderer.finalNewline (r : Renderer) : Out := if r.indent.isSome then [b! "\n"] else []

mutual

/-- src/html.rs:353-684 `render_event` -/
def Renderer.event (fuel : Nat) (r : Renderer) (e : Event) : R (Renderer × Out) :=
  match fuel with
  | 0 => .error .fuel
  | fuel + 1 =>
    match r.filter e with
    | some r => .ok (r, [])
    | none =>
      if e = .end .document then
        if 0 < r.imgAltText then .ok (r, []) else Renderer.epilogue fuel r
      else r.core e

/-- src/html.rs:686-740 `render_epilogue` -/
def Renderer.epilogue (fuel : Nat) (r : Renderer) : R (Renderer × Out) :=
  match fuel with
  | 0 => .error .fuel
  | fuel + 1 =>
    if r.footnotes.references.isEmpty then .ok (r, r.finalNewline)
    else do
      let x ← Renderer.notes fuel r.beginNotes.1
      pure (x.1.endNotes.1, r.beginNotes.2 ++ x.2 ++ x.1.endNotes.2 ++ x.1.endNotes.1.finalNewline)

/-- src/html.rs:698-727: the loop over the notes. -/
def Renderer.notes (fuel : Nat) (r : Renderer) : R (Renderer × Out) :=
  match fuel with
  | 0 => .error .fuel
  | fuel + 1 =>
    match r.footnotes.next with
    | none => .ok (r, [])
    | some ((number, evs), f) => do
      let r0 := { r with footnotes := f }
      let x ← Renderer.note fuel (r0.beginNote number).1 (evs.getD []) false
      let y ← Renderer.notes fuel (x.1.endNote number x.2.1).1
      pure (y.1, (r0.beginNote number).2 ++ x.2.2 ++ (x.1.endNote number x.2.1).2 ++ y.2)

/-- src/html.rs:702-714: the events of a note; the flag is `unclosed_para`. -/
def Renderer.note (fuel : Nat) (r : Renderer) (evs : List Event) (unclosed : Bool) :
    R (Renderer × Bool × Out) :=
  match fuel with
  | 0 => .error .fuel
  | fuel + 1 =>
    match evs with
    | [] => .ok (r, unclosed, [])
    | e :: es =>
      if e = .blankline ∨ e = .escape then Renderer.note fuel r es unclosed
      else do
        let x ← Renderer.event fuel r e
        let y ← Renderer.note fuel x.1 es (decide (e = .end .paragraph ∧ x.1.listTightness.head? ≠ some true))
        pure (y.1, y.2.1, (if unclosed then [b! "</p>"] else []) ++ x.2 ++ y.2.2)

end

/-- Bound for the recursion: every footnote event put aside is rendered at most once and can add at
most one reference. (bounds the loop of src/html.rs:698-727; not in the code) -/
def Renderer.fuel (r : Renderer) : Nat :=
  8 * (r.footnotes.events.map (fun p => p.2.length)).sum + 4 * r.footnotes.references.length + 8

/-- src/html.rs:265-270 `push_event` into a writer that never fails: the write calls made. -/
def Renderer.pushEvent (r : Renderer) (e : Event) : R (Renderer × Out) := Renderer.event r.fuel r e

/-- src/lib.rs:133-139 `push_events` into a writer that never fails. -/
def Renderer.pushEvents (r : Renderer) : List Event → R (Renderer × Out)
  | [] => .ok (r, [])
  | e :: es => do
    let (r, o1) ← r.pushEvent e
    let (r, o2) ← r.pushEvents es
    pure (r, o1 ++ o2)

/-- The output of a sequence of events. (src/lib.rs:133-139 with src/html.rs:265-270) -/
def Renderer.output (r : Renderer) (es : List Event) : R Bytes := do
  let (_, o) ← r.pushEvents es
  pure o.flatten

/-- src/html.rs:29-36 -/
def renderToString (es : List Event) : R Bytes := Renderer.default.output es

/-! ## Writers that can fail -/

/-- A writer (`std::fmt::Write` or `std::io::Write`): a state and a write function that may fail
with an error. Trusted: `write_all` of a `std::io::Write` is one write.
(the parameter `W` of src/lib.rs:133, 145) -/
structure Sink (σ ε : Type) where
  write : σ → Bytes → Except (σ × ε) σ

/-- Perform write calls until one fails (`?` after every call). (`?` in src/html.rs:353-740) -/
def Sink.writeAll {σ ε : Type} (w : Sink σ ε) (s : σ) : Out → σ × Option ε
  | [] => (s, none)
  | b :: bs =>
    match w.write s b with
    | .ok s => w.writeAll s bs
    | .error (s, e) => (s, some e)

/-- src/lib.rs:133-139 `push_events` into a writer that may fail. Simplification: the state of the
renderer after a failure is not modelled, rendering ends there. -/
def Renderer.pushEventsTo {σ ε : Type} (w : Sink σ ε) (r : Renderer) (s : σ) :
    List Event → R (σ × Option ε)
  | [] => .ok (s, none)
  | e :: es => do
    let (r, o) ← r.pushEvent e
    match w.writeAll s o with
    | (s, none) => r.pushEventsTo w s es
    | (s, some err) => pure (s, some err)

/-- `std::io::Error`: one of the writer, or `Error::other("formatter error")`.
(src/lib.rs:145-151) -/
inductive IoError (ε : Type)
  | own (e : ε)
  | formatter
  deriving DecidableEq, Repr

/-- src/lib.rs:107-119 `WriteAdapter`: a byte sink as a `fmt::Write`; the byte sink's error is kept
aside, `fmt::Error` carries no information. -/
def Sink.adapter {σ ε : Type} (w : Sink σ ε) : Sink (σ × Option ε) Unit where
  write s b :=
    match w.write s.1 b with
    | .ok s' => .ok (s', s.2)
    | .error (s', e) => .error ((s', some e), ())

/-- src/lib.rs:145-151, 102-131 `write_events` / `write_event`: events are rendered through a fresh
adapter each until a write fails. -/
def Renderer.writeEvents {σ ε : Type} (w : Sink σ ε) (r : Renderer) (s : σ) :
    List Event → R (σ × Option (IoError ε))
  | [] => .ok (s, none)
  | e :: es => do
    let (r, o) ← r.pushEvent e
    match w.adapter.writeAll (s, none) o with
    | ((s, _), none) => r.writeEvents w s es
    | ((s, some err), some ()) => pure (s, some (.own err))
    | ((s, none), some ()) => pure (s, some .formatter)

end Jotdown.Html
