import Verif.Model.Block
import Verif.Model.Inline
/-! # Model of the parser and its events in src/lib.rs -/
namespace Jotdown
open Jotdown

/-! ## Public types -/

/-- src/lib.rs:1940-1947 -/
inductive SpanLinkType
  | inline | reference | unresolved
  deriving DecidableEq, Repr, Inhabited

/-- src/lib.rs:1951-1958 -/
inductive LinkType
  | span (t : SpanLinkType) | autoLink | email
  deriving DecidableEq, Repr, Inhabited

/-- src/lib.rs:1962-1969 -/
inductive Bullet
  | dash | star | plus
  deriving DecidableEq, Repr, Inhabited

/-- src/lib.rs:1971-1982 `TryFrom<u8> for ListBulletType` -/
def Bullet.ofByte (c : UInt8) : Option Bullet :=
  if c = c! '-' then some .dash else if c = c! '*' then some .star
  else if c = c! '+' then some .plus else none

/-- src/lib.rs:2012-2023 -/
inductive ListKind
  | unordered (b : Bullet)
  | ordered (n : Numbering) (s : NumStyle) (start : Nat)
  | task (b : Bullet)
  deriving DecidableEq, Repr, Inhabited

/-- src/lib.rs:677-1845 -/
inductive Container
  | document | blockquote
  | list (kind : ListKind) (tight : Bool)
  | listItem
  | taskListItem (checked : Bool)
  | descriptionList | descriptionDetails
  | footnote (label : Bytes)
  | table
  | tableRow (head : Bool)
  | section (id : Bytes)
  | div (cls : Bytes)
  | paragraph
  | heading (level : Nat) (hasSection : Bool) (id : Bytes)
  | tableCell (alignment : Alignment) (head : Bool)
  | caption | descriptionTerm
  | linkDefinition (label : Bytes)
  | rawBlock (format : Bytes)
  | codeBlock (language : Bytes)
  | span
  | link (url : Bytes) (ty : LinkType)
  | image (url : Bytes) (ty : SpanLinkType)
  | verbatim
  | math (display : Bool)
  | rawInline (format : Bytes)
  | subscript | superscript | insert | delete | strong | emphasis | mark
  deriving DecidableEq, Repr, Inhabited

/-- src/lib.rs:161-667 -/
inductive Event
  | start (c : Container) (attrs : Attr.Attributes)
  | «end» (c : Container)
  | str (s : Bytes)
  | footnoteReference (label : Bytes)
  | symbol (s : Bytes)
  | leftSingleQuote | rightSingleQuote | leftDoubleQuote | rightDoubleQuote
  | ellipsis | enDash | emDash | nonBreakingSpace | softbreak | hardbreak | escape | blankline
  | thematicBreak (attrs : Attr.Attributes)
  | attributes (attrs : Attr.Attributes)
  deriving DecidableEq, Repr, Inhabited

/-! ## First pass -/

/-- src/lib.rs:2153-2162; `location` is `span.start as u32`. -/
structure Heading where
  location : Nat
  idAuto : Bytes
  text : Bytes
  idOverride : Option Bytes
  deriving DecidableEq, Repr, Inhabited

/-- src/lib.rs:2166-2173. `linkDefinitions` has the latest insertion first. Simplification:
`headings_lex` holds the sorted headings instead of their indices. -/
structure PrePass where
  linkDefinitions : List (Bytes × (Bytes × Attr.Attributes)) := []
  headings : List Heading := []
  headingsLex : List Heading := []
  deriving DecidableEq, Repr, Inhabited

/-- The leading `Inline` events; one further event is consumed as well
(src/lib.rs:2201-2233 and 2259-2269). -/
def takeInlines : List Block.Event → List Span × List Block.Event
  | [] => ([], [])
  | e :: es =>
    if e.kind = .inline then (e.span :: (takeInlines es).1, (takeInlines es).2)
    else ([], es)

/-- src/lib.rs:2195-2200: attributes before a definition or heading. -/
def collectAttrs (src : Bytes) : List Span → R Attr.Attributes
  | [] => .ok []
  | sp :: sps => do
    let s ← strSlice src sp.start sp.stop
    let r ← Attr.tryFrom s
    match r with
    | .ok a => do
      let rest ← collectAttrs src sps
      pure (a ++ rest)
    | .error _ => .error .unwrap

/-- src/lib.rs:2201-2233: url of a link definition. -/
def collectUrl (src : Bytes) : List Span → R Bytes
  | [] => .ok []
  | sp :: sps => do
    let s ← strSlice src sp.start sp.stop
    let rest ← collectUrl src sps
    pure (trim s ++ rest)

/-- Variables of the loop over the inline events of a heading (src/lib.rs:2250-2254). -/
structure HeadingText where
  idAuto : Bytes := []
  text : Bytes := []
  lastWs : Bool := true
  deriving DecidableEq, Repr, Inhabited

/-- src/lib.rs:2271-2285: contribution of a text to the id. Skipping the following whitespace is
the same as ignoring whitespace after whitespace. -/
def HeadingText.chars (h : HeadingText) : Bytes → HeadingText
  | [] => h
  | c :: cs =>
    if isWs c then
      (if h.lastWs then h else { h with lastWs := true, idAuto := h.idAuto ++ b! "-" }).chars cs
    else if !isPunct c || c == c! '-' || c == c! '_' then
      { h with idAuto := h.idAuto ++ [c], lastWs := false }.chars cs
    else h.chars cs

/-- src/lib.rs:2268-2292: one inline event. -/
def HeadingText.event (src : Bytes) (h : HeadingText) (e : Inline.Event) : R HeadingText :=
  match e.kind with
  | .str => do
    let s ← strSlice src e.span.start e.span.stop
    pure ({ h with text := h.text ++ s }.chars s)
  | .atom .softbreak => .ok { h with text := h.text ++ b! " ", idAuto := h.idAuto ++ b! "-" }
  | _ => .ok h

/-- src/lib.rs:2268-2292: `inline_parser.for_each(..)` -/
def drainHeading (src : Bytes) (fuel : Nat) (p : Inline.IP) (h : HeadingText) :
    R (Inline.IP × HeadingText) :=
  match fuel with
  | 0 => .error .fuel
  | fuel + 1 => do
    let r ← p.nextEvent
    match r.2 with
    | none => pure (r.1, h)
    | some e => do
      let h ← h.event src e
      drainHeading src fuel r.1 h

/-- src/lib.rs:2255-2296: feed the lines of a heading, `lastEnd` is the end of the last one. -/
def headingLines (src : Bytes) (p : Inline.IP) (h : HeadingText) (lastEnd : Nat) :
    List Span → R (Inline.IP × HeadingText)
  | [] => do
    let p ← p.feedLine ⟨lastEnd, lastEnd⟩ true
    drainHeading src p.eventFuel p h
  | sp :: sps => do
    let p ← p.feedLine sp false
    let r ← drainHeading src p.eventFuel p h
    headingLines src r.1 r.2 sp.stop sps

/-- Decimal representation, `write!("{num}")`. (src/lib.rs:2307, 2311) -/
def decimal (n : Nat) : Bytes :=
  if n < 10 then [48 + n.toUInt8] else decimal (n / 10) ++ [48 + (n % 10).toUInt8]
termination_by n

/-- src/lib.rs:2304-2312: the loop for the number suffix. -/
def uniqueSuffix (used : List Bytes) (base : Bytes) (num : Nat) : Nat → R Bytes
  | 0 => .error .fuel
  | fuel + 1 =>
    if used.contains (base ++ decimal num) then uniqueSuffix used base (num + 1) fuel
    else .ok (base ++ decimal num)

/-- `s.trim_end_matches('-')` (src/lib.rs:2297) -/
def trimDashes (s : Bytes) : Bytes := (s.reverse.dropWhile (· == c! '-')).reverse

/-- src/lib.rs:2297-2313: unique id from the text. Simplification: `num: i32` is unbounded. -/
def uniqueId (used : List Bytes) (idAuto : Bytes) : R Bytes :=
  let idAuto := trimDashes idAuto
  if used.contains idAuto || idAuto.isEmpty then
    let base := (if idAuto.isEmpty then b! "s" else idAuto) ++ b! "-"
    uniqueSuffix used base 1 (used.length + 1)
  else .ok idAuto

/-- Variables of the loop of the first pass (src/lib.rs:2183-2187). -/
structure PreState where
  linkDefinitions : List (Bytes × (Bytes × Attr.Attributes)) := []
  headings : List Heading := []
  usedIds : List Bytes := []
  attrPrev : List Span := []
  inlineParser : Inline.IP
  deriving DecidableEq, Repr, Inhabited

/-- src/lib.rs:2190-2235: a link definition. -/
def PreState.linkDefinition (src : Bytes) (s : PreState) (label : Bytes) (inl : List Span) :
    R PreState := do
  let attrs ← collectAttrs src s.attrPrev
  let url ← collectUrl src inl
  pure { s with linkDefinitions := (label, (url, attrs)) :: s.linkDefinitions }

/-- src/lib.rs:2236-2322: a heading. -/
def PreState.heading (src : Bytes) (s : PreState) (start : Nat) (inl : List Span) : R PreState := do
  let attrs ← collectAttrs src s.attrPrev
  let idOverride := (Attr.getValue attrs (b! "id")).map Attr.display
  let ip ← s.inlineParser.reset
  let (ip, h) ← headingLines src ip {} 0 inl
  let id ← uniqueId s.usedIds h.idAuto
  pure { s with
    inlineParser := ip
    usedIds := id :: s.usedIds
    headings := s.headings ++ [⟨start % 4294967296, id, h.text, idOverride⟩] }

theorem takeInlines_length (es : List Block.Event) : (takeInlines es).2.length ≤ es.length := by
  induction es with
  | nil => simp [takeInlines]
  | cons e es ih => unfold takeInlines; split <;> simp only [List.length_cons] <;> omega

/-- src/lib.rs:2187-2334: loop over the block events. -/
def PreState.loop (src : Bytes) (s : PreState) (es : List Block.Event) : R PreState :=
  match es with
  | [] => .ok s
  | e :: es =>
    match e.kind with
    | .enter (.leaf (.linkDefinition label)) => do
      let s ← s.linkDefinition src label (takeInlines es).1
      s.loop src (takeInlines es).2
    | .enter (.leaf (.heading ..)) => do
      let s ← s.heading src e.span.start (takeInlines es).1
      s.loop src (takeInlines es).2
    | .atom .attributes => { s with attrPrev := s.attrPrev ++ [e.span] }.loop src es
    | .enter _ => s.loop src es
    | .exit (.container (.section _)) => s.loop src es
    | _ => { s with attrPrev := [] }.loop src es
termination_by es.length
decreasing_by
  all_goals (have := takeInlines_length es; simp only [List.length_cons]; omega)

/-- Lexicographic order of strings (`Ord for str`). (order of the keys in src/lib.rs:2337, 2360) -/
def bytesCmp : Bytes → Bytes → Ordering
  | [], [] => .eq
  | [], _ :: _ => .lt
  | _ :: _, [] => .gt
  | a :: as, b :: bs => if a < b then .lt else if b < a then .gt else bytesCmp as bs

/-- src/lib.rs:2177-2344 `PrePass::new` -/
def PrePass.new (src : Bytes) (blocks : List Block.Event) (ip : Inline.IP) : R (PrePass × Inline.IP) := do
  let s ← PreState.loop src { inlineParser := ip } blocks
  pure ({
    linkDefinitions := s.linkDefinitions
    headings := s.headings
    headingsLex := s.headings.mergeSort (fun a b => bytesCmp a.text b.text != .gt) }, s.inlineParser)

/-- `slice::binary_search_by` (std), on the window of length `size` from `base`; `f` compares an
element with the target. Which of several equal elements is found is not specified by std; this is
the current implementation. (used at src/lib.rs:2353, 2360) -/
def bsearch {α : Type} (f : α → Ordering) (l : List α) (base size : Nat) : Option α :=
  if size ≤ 1 then
    match l[base]? with
    | some x => if f x = .eq then some x else none
    | none => none
  else
    match l[base + size / 2]? with
    | some x =>
      if f x = .gt then bsearch f l base (size - size / 2)
      else bsearch f l (base + size / 2) (size - size / 2)
    | none => none
termination_by size
decreasing_by all_goals omega

/-- src/lib.rs:2346-2349 -/
def Heading.id (h : Heading) : Bytes := h.idOverride.getD h.idAuto

/-- src/lib.rs:2351-2356 -/
def PrePass.headingIdByLocation (p : PrePass) (loc : Nat) : Option Bytes :=
  (bsearch (fun h => compare h.location loc) p.headings 0 p.headings.length).map (·.id)

/-- src/lib.rs:2358-2363 -/
def PrePass.headingIdByTag (p : PrePass) (tag : Bytes) : Option Bytes :=
  (bsearch (fun h => bytesCmp h.text tag) p.headingsLex 0 p.headingsLex.length).map (·.id)

/-- `Map::get` (src/lib.rs:2544) -/
def PrePass.linkDefinition (p : PrePass) (label : Bytes) : Option (Bytes × Attr.Attributes) :=
  (p.linkDefinitions.find? (fun d => d.1 == label)).map (·.2)

/-! ## Parser -/

/-- src/lib.rs:2130-2150 -/
structure Parser where
  src : Bytes
  blocks : List Block.Event
  prePass : PrePass
  blockAttributes : Option (Attr.Attributes × Span) := none
  tableHeadRow : Bool := false
  verbatim : Bool := false
  inlineParser : Inline.IP
  deriving DecidableEq, Repr, Inhabited

/-- src/lib.rs:2368-2382 `Parser::new` -/
def Parser.new (src : Bytes) : R Parser := do
  let blocks ← Block.parse src
  let (pre, ip) ← PrePass.new src blocks (Inline.IP.new src)
  pure { src := src, blocks := blocks, prePass := pre, inlineParser := ip }

/-- src/lib.rs:2540-2564: a reference link or image; attributes of the definition are put before
those of the link on entering. -/
def Parser.reference (p : Parser) (tag : Bytes) (enter : Bool) (attrs : Attr.Attributes) :
    Bytes × SpanLinkType × Attr.Attributes :=
  match p.prePass.linkDefinition tag with
  | some (url, attrsDef) => (url, .reference, if enter then attrsDef ++ attrs else attrs)
  | none =>
    match p.prePass.headingIdByTag tag with
    | some id => (b! "#" ++ id, .reference, attrs)
    | none => (tag, .unresolved, attrs)

/-- src/lib.rs:2517-2579: the public container for an inline container. -/
def Parser.inlineContainer (p : Parser) (c : Inline.Container) (enter : Bool)
    (attrs : Attr.Attributes) : R (Container × Attr.Attributes) :=
  match c with
  | .span => .ok (.span, attrs)
  | .verbatim => .ok (.verbatim, attrs)
  | .inlineMath => .ok (.math false, attrs)
  | .displayMath => .ok (.math true, attrs)
  | .rawFormat f => .ok (.rawInline f, attrs)
  | .subscript => .ok (.subscript, attrs)
  | .superscript => .ok (.superscript, attrs)
  | .insert => .ok (.insert, attrs)
  | .delete => .ok (.delete, attrs)
  | .emphasis => .ok (.emphasis, attrs)
  | .strong => .ok (.strong, attrs)
  | .mark => .ok (.mark, attrs)
  | .inlineLink i => do
    let u ← idx p.inlineParser.storeCowstrs i
    pure (.link u (.span .inline), attrs)
  | .inlineImage i => do
    let u ← idx p.inlineParser.storeCowstrs i
    pure (.image u .inline, attrs)
  | .referenceLink i => do
    let tag ← idx p.inlineParser.storeCowstrs i
    let (u, ty, attrs) := p.reference tag enter attrs
    pure (.link u (.span ty), attrs)
  | .referenceImage i => do
    let tag ← idx p.inlineParser.storeCowstrs i
    let (u, ty, attrs) := p.reference tag enter attrs
    pure (.image u ty, attrs)
  | .autolink url =>
    .ok (.link url (if url.contains (c! '@') then .email else .autoLink), attrs)

/-- src/lib.rs:2580-2598 -/
def atomEvent : Inline.Atom → Event
  | .footnoteReference l => .footnoteReference l
  | .symbol s => .symbol s
  | .quote .single true => .leftSingleQuote
  | .quote .single false => .rightSingleQuote
  | .quote .double true => .leftDoubleQuote
  | .quote .double false => .rightDoubleQuote
  | .ellipsis => .ellipsis
  | .enDash => .enDash
  | .emDash => .emDash
  | .nbsp => .nonBreakingSpace
  | .softbreak => .softbreak
  | .hardbreak => .hardbreak
  | .escape => .escape

/-- src/lib.rs:2513-2609: the public event for an inline event, and the attributes not used. -/
def Parser.inlineEvent (p : Parser) (e : Inline.Event) (attrs : Attr.Attributes) :
    R (Event × Attr.Attributes) :=
  match e.kind with
  | .enter c => do
    let (t, attrs) ← p.inlineContainer c true attrs
    pure (.start t attrs, [])
  | .exit c => do
    let (t, attrs) ← p.inlineContainer c false attrs
    pure (.end t, attrs)
  | .atom a => .ok (atomEvent a, attrs)
  | .empty => do
    dassert (!attrs.isEmpty)
    pure (.attributes attrs, [])
  | .str => do
    let s ← strSlice p.src e.span.start e.span.stop
    pure (.str s, attrs)
  | .attributes .. | .placeholder => .error .panic

/-- src/lib.rs:2499-2617 `inline` -/
def Parser.inline (p : Parser) : R (Parser × Option (Event × Span)) := do
  let (ip, next) ← p.inlineParser.nextEvent
  let p := { p with inlineParser := ip }
  match next with
  | none => pure (p, none)
  | some e =>
    match e.kind with
    | .attributes _ i => do
      let (ip, e') ← p.inlineParser.nextEvent
      let p := { p with inlineParser := ip }
      let attrs ← idx p.inlineParser.storeAttributes i
      match e' with
      | some e' => do
        let (ev, rest) ← p.inlineEvent e' attrs
        dassert rest.isEmpty
        pure (p, some (ev, e'.span))
      | none => do
        dassert attrs.isEmpty
        pure (p, none)
    | _ => do
      let (ev, rest) ← p.inlineEvent e []
      dassert rest.isEmpty
      pure (p, some (ev, e.span))

/-- Result of one step of the loop in `block` (src/lib.rs:2619-2808). -/
inductive Step
  | emit (e : Event) (sp : Span)
  | cont
  | fed
  | stop
  deriving DecidableEq, Repr, Inhabited

/-- src/lib.rs:2661-2704: a leaf. -/
def Parser.leafContainer (p : Parser) (l : Block.Leaf) (enter : Bool) : R (Parser × Container) := do
  let ip ← p.inlineParser.reset
  let p := { p with inlineParser := ip }
  match l with
  | .paragraph => pure (p, .paragraph)
  | .heading level hs pos =>
    pure (p, .heading level hs ((p.prePass.headingIdByLocation pos).getD []))
  | .descriptionTerm => pure (p, .descriptionTerm)
  | .codeBlock language =>
    let p := { p with verbatim := enter }
    pure (p, match language with
      | 61 :: format => .rawBlock format
      | _ => .codeBlock language)
  | .tableCell a => pure (p, .tableCell a p.tableHeadRow)
  | .caption => pure (p, .caption)
  | .linkDefinition label => pure ({ p with verbatim := enter }, .linkDefinition label)

/-- src/lib.rs:2714-2737: kind of a list. -/
def listContainer (ty : Block.ListType) (tight : Bool) : R Container :=
  match ty with
  | .description => .ok .descriptionList
  | .unordered c => match Bullet.ofByte c with
    | some b => .ok (.list (.unordered b) tight)
    | none => .error .unwrap
  | .task c => match Bullet.ofByte c with
    | some b => .ok (.list (.task b) tight)
    | none => .error .unwrap
  | .ordered n s => .ok (.list (.ordered n.numbering s n.value) tight)

/-- src/lib.rs:2705-2760: a block container. -/
def Parser.blockContainer (p : Parser) (c : Block.Container) (enter : Bool) : R (Parser × Container) :=
  match c with
  | .document => .ok (p, .document)
  | .blockquote => .ok (p, .blockquote)
  | .div cls => .ok (p, .div cls)
  | .footnote l => .ok (p, .footnote l)
  | .list ty tight => do
    let c ← listContainer ty tight
    pure (p, c)
  | .listItem (.task checked) => .ok (p, .taskListItem checked)
  | .listItem .description => .ok (p, .descriptionDetails)
  | .listItem .list => .ok (p, .listItem)
  | .table => .ok (p, .table)
  | .tableRow head =>
    .ok (if enter then { p with tableHeadRow := head } else p, .tableRow head)
  | .section pos => .ok (p, .section ((p.prePass.headingIdByLocation pos).getD []))

/-- src/lib.rs:2660-2761 -/
def Parser.nodeContainer (p : Parser) (n : Block.Node) (enter : Bool) : R (Parser × Container) :=
  match n with
  | .leaf l => p.leafContainer l enter
  | .container c => p.blockContainer c enter

/-- `matches!(self.blocks.peek().map(|e| &e.kind), Some(k))` (src/lib.rs:2648-2651, 2789-2792) -/
def nextIs (es : List Block.Event) (k : Block.EventKind) : Bool :=
  match es with
  | e :: _ => e.kind == k
  | [] => false

/-- src/lib.rs:2638-2656: block attributes; `es` are the following events. -/
def Parser.blockAttrs (p : Parser) (span : Span) (es : List Block.Event) : R (Parser × Step) := do
  let (attrs, sp) := p.blockAttributes.getD ([], span)
  let s ← strSlice p.src span.start span.stop
  let r ← Attr.parseAttributes attrs s
  match r with
  | .error _ => .error .unwrap
  | .ok attrs =>
    let sp : Span := ⟨sp.start, span.stop⟩
    let p := { p with blocks := es, blockAttributes := none }
    if nextIs es (.atom .blankline) then pure (p, .emit (.attributes attrs) sp)
    else pure ({ p with blockAttributes := some (attrs, sp) }, .cont)

/-- src/lib.rs:2630-2635, 2789-2796: take the pending block attributes; they extend the span. -/
def Parser.takeAttrs (p : Parser) (span : Span) : Parser × Attr.Attributes × Span :=
  match p.blockAttributes with
  | some (attrs, sp) => ({ p with blockAttributes := none }, attrs, ⟨sp.start, span.stop⟩)
  | none => (p, [], span)

/-- src/lib.rs:2619-2808: one step of the loop in `block`. -/
def Parser.blockStep (p : Parser) : R (Parser × Step) :=
  match p.blocks with
  | [] => .ok (p, .stop)
  | ev :: es =>
    match ev.kind with
    | .atom .blankline => do
      dassert p.blockAttributes.isNone
      pure ({ p with blocks := es }, .emit .blankline ev.span)
    | .atom .thematicBreak =>
      let (p, attrs, sp) := p.takeAttrs ev.span
      .ok ({ p with blocks := es }, .emit (.thematicBreak attrs) sp)
    | .atom .attributes => p.blockAttrs ev.span es
    | .enter n => do
      let (p, c) ← p.nodeContainer n true
      let (p, attrs, sp) := p.takeAttrs ev.span
      pure ({ p with blocks := es }, .emit (.start c attrs) sp)
    | .exit n => do
      let (p, c) ← p.nodeContainer n false
      match p.blockAttributes with
      | some (attrs, sp) => pure ({ p with blockAttributes := none }, .emit (.attributes attrs) sp)
      | none => pure ({ p with blocks := es }, .emit (.end c) ev.span)
    | .inline =>
      if p.verbatim then
        if ev.span.isEmpty then .ok ({ p with blocks := es }, .cont)
        else do
          let s ← strSlice p.src ev.span.start ev.span.stop
          pure ({ p with blocks := es }, .emit (.str s) ev.span)
      else do
        let ip ← p.inlineParser.feedLine ev.span (!nextIs es .inline)
        pure ({ p with blocks := es, inlineParser := ip }, .fed)
    | .stale => .ok ({ p with blocks := es }, .cont)

/-- src/lib.rs:2811: the inline events come first, except after a block event without event. -/
def Parser.inlineUnless (p : Parser) (skip : Bool) : R (Parser × Option (Event × Span)) :=
  if skip then .ok (p, none) else p.inline

/-- src/lib.rs:2810-2816: `next_span` (`skip = false`) and the loop of `block` (`skip = true`);
`fuel` bounds the number of block events passed. -/
def Parser.nextSpan (fuel : Nat) (p : Parser) (skip : Bool) : R (Parser × Option (Event × Span)) :=
  match fuel with
  | 0 => .error .fuel
  | fuel + 1 => do
    let (p, r) ← p.inlineUnless skip
    match r with
    | some r => pure (p, some r)
    | none => do
      let (p, s) ← p.blockStep
      match s with
      | .emit e sp => pure (p, some (e, sp))
      | .cont => Parser.nextSpan fuel p true
      | .fed => Parser.nextSpan fuel p false
      | .stop =>
        match p.blockAttributes with
        | some (attrs, sp) => pure ({ p with blockAttributes := none }, some (.attributes attrs, sp))
        | none => pure (p, none)

/-- src/lib.rs:2822-2824 `OffsetIter::next` (and 2821-2827 `Parser::next`). -/
def Parser.next (p : Parser) : R (Parser × Option (Event × Span)) :=
  p.nextSpan (p.blocks.length + 1) false

/-- All events from the parser's current state, `fuel` bounds their number.
(the iteration of src/lib.rs:2819-2841) -/
def Parser.collect (fuel : Nat) (p : Parser) : R (List (Event × Span)) :=
  match fuel with
  | 0 => .error .fuel
  | fuel + 1 => do
    let (p, r) ← p.next
    match r with
    | none => pure []
    | some e => do
      let es ← Parser.collect fuel p
      pure (e :: es)

/-- Bound for the number of events. (bounds the iteration; not in the code) -/
def Parser.collectFuel (p : Parser) : Nat :=
  (p.blocks.length + 1) * (3 * p.src.length + 8)

/-- `Parser::new(src).into_offset_iter().collect()` (src/lib.rs:2368, 2495, 2838). -/
def offsetEvents (src : Bytes) : R (List (Event × Span)) := do
  let p ← Parser.new src
  p.collect p.collectFuel

/-- `Parser::new(src).collect()` (src/lib.rs:2368, 2822). -/
def events (src : Bytes) : R (List Event) := do
  let es ← offsetEvents src
  pure (es.map (·.1))

end Jotdown
