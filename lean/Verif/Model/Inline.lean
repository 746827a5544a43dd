import Verif.Model.Attr
import Verif.Model.Lex
/-! # Model of src/inline.rs -/
namespace Jotdown.Inline
open Jotdown

/-! ## Types -/

/-- src/inline.rs:51-54 -/
inductive QuoteType
  | single | double
  deriving DecidableEq, Repr, Inhabited

/-- src/inline.rs:14-25 -/
inductive Atom
  | footnoteReference (label : Bytes)
  | symbol (name : Bytes)
  | softbreak | hardbreak | escape | nbsp | ellipsis | enDash | emDash
  | quote (ty : QuoteType) (left : Bool)
  deriving DecidableEq, Repr, Inhabited

/-- src/inline.rs:28-46. Simplification: the `u32` indices (48, 71) into the stores are naturals. -/
inductive Container
  | span | subscript | superscript | insert | delete | emphasis | strong | mark | verbatim
  | rawFormat (format : Bytes)
  | inlineMath | displayMath
  | referenceLink (i : Nat) | referenceImage (i : Nat) | inlineLink (i : Nat) | inlineImage (i : Nat)
  | autolink (url : Bytes)
  deriving DecidableEq, Repr, Inhabited

/-- src/inline.rs:57-68 -/
inductive EventKind
  | enter (c : Container)
  | exit (c : Container)
  | atom (a : Atom)
  | str
  | empty
  | attributes (container : Bool) (attrs : Nat)
  | placeholder
  deriving DecidableEq, Repr, Inhabited

/-- src/inline.rs:73-76 -/
structure Event where
  kind : EventKind
  span : Span
  deriving DecidableEq, Repr, Inhabited

/-- src/inline.rs:1026-1030 -/
inductive Dir
  | uni | bi
  deriving DecidableEq, Repr, Inhabited

/-- src/inline.rs:1032-1036 -/
inductive SpanType
  | image | general
  deriving DecidableEq, Repr, Inhabited

/-- src/inline.rs:1039-1055 -/
inductive Opener
  | span (t : SpanType)
  | strong (d : Dir) | emphasis (d : Dir) | superscript (d : Dir) | subscript (d : Dir)
  | mark | delete | insert | singleQuoted | doubleQuoted
  | link (eventSpan : Nat) (image inline : Bool)
  deriving DecidableEq, Repr, Inhabited

/-- src/inline.rs:1058-1083 -/
def Opener.fromToken (k : Lex.Kind) : Option Opener :=
  match k with
  | .sym .asterisk => some (.strong .bi)
  | .sym .underscore => some (.emphasis .bi)
  | .sym .caret => some (.superscript .bi)
  | .sym .tilde => some (.subscript .bi)
  | .sym .quote1 => some .singleQuoted
  | .sym .quote2 => some .doubleQuoted
  | .sym .exclaimBracket => some (.span .image)
  | .opn .bracket => some (.span .general)
  | .opn .braceAsterisk => some (.strong .uni)
  | .opn .braceUnderscore => some (.emphasis .uni)
  | .opn .braceCaret => some (.superscript .uni)
  | .opn .braceTilde => some (.subscript .uni)
  | .opn .braceEqual => some .mark
  | .opn .braceHyphen => some .delete
  | .opn .bracePlus => some .insert
  | .opn .braceQuote1 => some .singleQuoted
  | .opn .braceQuote2 => some .doubleQuoted
  | _ => none

/-- src/inline.rs:1085-1113 -/
def Opener.closedBy (o : Opener) (k : Lex.Kind) : Bool :=
  match o with
  | .span _ => k = .cls .bracket
  | .strong .bi => k = .sym .asterisk
  | .strong .uni => k = .cls .braceAsterisk
  | .emphasis .bi => k = .sym .underscore
  | .emphasis .uni => k = .cls .braceUnderscore
  | .superscript .bi => k = .sym .caret
  | .superscript .uni => k = .cls .braceCaret
  | .subscript .bi => k = .sym .tilde
  | .subscript .uni => k = .cls .braceTilde
  | .mark => k = .cls .braceEqual
  | .delete => k = .cls .braceHyphen
  | .insert => k = .cls .bracePlus
  | .singleQuoted => k = .sym .quote1 ∨ k = .cls .braceQuote1
  | .doubleQuoted => k = .sym .quote2 ∨ k = .cls .braceQuote2
  | .link _ _ false => k = .cls .bracket
  | .link _ _ true => k = .cls .paren

/-- src/inline.rs:1115-1125 -/
def Opener.bidirectional : Opener → Bool
  | .strong .bi | .emphasis .bi | .superscript .bi | .subscript .bi => true
  | .singleQuoted | .doubleQuoted => true
  | _ => false

/-- src/inline.rs:1128-1137 -/
inductive DelimEventKind
  | container (c : Container)
  | span (t : SpanType)
  | quote (q : QuoteType)
  | link (eventSpan : Nat) (image inline : Bool)
  deriving DecidableEq, Repr, Inhabited

/-- src/inline.rs:1139-1163 -/
def DelimEventKind.ofOpener : Opener → DelimEventKind
  | .span t => .span t
  | .strong _ => .container .strong
  | .emphasis _ => .container .emphasis
  | .superscript _ => .container .superscript
  | .subscript _ => .container .subscript
  | .mark => .container .mark
  | .delete => .container .delete
  | .insert => .container .insert
  | .singleQuoted => .quote .single
  | .doubleQuoted => .quote .double
  | .link e i l => .link e i l

/-! ## Input -/

/-- src/inline.rs:79-91 -/
structure Input where
  src : Bytes
  lexer : Lex.Lexer := Lex.Lexer.new []
  complete : Bool := false
  spanLine : Span := ⟨0, 0⟩
  ahead : List Span := []
  span : Span := ⟨0, 0⟩
  deriving DecidableEq, Repr, Inhabited

/-- src/inline.rs:120-124 -/
def Input.setCurrentLine (i : Input) (line : Span) : R Input := do
  let s ← byteSlice i.src line.start line.stop
  pure { i with lexer := Lex.Lexer.new s, span := ⟨line.start, line.start⟩, spanLine := line }

/-- src/inline.rs:105-118 -/
def Input.feedLine (i : Input) (line : Span) (last : Bool) : R Input := do
  dassert (!i.complete)
  let i := { i with complete := last }
  let a ← i.lexer.ahead
  if a.isEmpty then
    match i.ahead with
    | next :: rest =>
      let i ← { i with ahead := rest }.setCurrentLine next
      pure { i with ahead := i.ahead ++ [line] }
    | [] => i.setCurrentLine line
  else pure { i with ahead := i.ahead ++ [line] }

/-- src/inline.rs:126-130 -/
def Input.reset (i : Input) : Input :=
  { i with lexer := Lex.Lexer.new [], complete := false, ahead := [] }

/-- src/inline.rs:132-134 -/
def Input.last (i : Input) : Bool := i.complete && i.ahead.isEmpty

/-- src/inline.rs:136-142 -/
def Input.eat (i : Input) : Option Lex.Token × Input :=
  match i.lexer.nextTok with
  | (some t, l) => (some t, { i with lexer := l, span := ⟨i.span.start, i.span.stop + t.len⟩ })
  | (none, l) => (none, { i with lexer := l })

/-- src/inline.rs:144-146 -/
def Input.peek (i : Input) : Option Lex.Token × Input :=
  ((i.lexer.peek).1, { i with lexer := (i.lexer.peek).2 })

/-- Kind of the peeked token. (used at src/inline.rs:733) -/
def Input.peekKind (i : Input) : Option Lex.Kind × Input :=
  ((i.peek).1.map (·.kind), (i.peek).2)

/-- src/inline.rs:148-150 -/
def Input.resetSpan (i : Input) : Input := { i with span := ⟨i.span.stop, i.span.stop⟩ }

/-- src/inline.rs:158-172: length of a raw format and whether it is terminated by `}`. -/
def scanRaw : Bytes → Nat × Bool
  | [] => (0, false)
  | c :: cs =>
    if c = c! '{' then (0, false)
    else if c = c! '}' then (0, true)
    else if isWs c then (0, false)
    else ((scanRaw cs).1 + 1, (scanRaw cs).2)

/-- src/inline.rs:173-187: skip the raw format of length `len`. -/
def Input.eatRawFormat (i : Input) (len : Nat) : R (Option Span × Input) := do
  dassert ((i.eat).1 == some ⟨.opn .braceEqual, 2⟩)
  let lexer ← (i.eat).2.lexer.skipAhead (len + 1)
  pure (some ⟨(i.eat).2.span.stop, (i.eat).2.span.stop + len⟩, { (i.eat).2 with lexer := lexer })

/-- src/inline.rs:152-188 -/
def Input.aheadRawFormat (i : Input) : R (Option Span × Input) :=
  if (i.peekKind).1 = some (.opn .braceEqual) then do
    let a ← (i.peekKind).2.lexer.ahead
    if 0 < (scanRaw (a.drop 2)).1 && (scanRaw (a.drop 2)).2 then
      (i.peekKind).2.eatRawFormat (scanRaw (a.drop 2)).1
    else pure (none, (i.peekKind).2)
  else .ok (none, (i.peekKind).2)

/-! ## Parser -/

/-- src/inline.rs:192-197 -/
structure VerbatimState where
  eventOpener : Nat
  lenOpener : Nat
  nonWsEncountered : Bool := false
  nonWsLast : Option (Lex.Kind × Nat) := none
  deriving DecidableEq, Repr, Inhabited

/-- src/inline.rs:208-211 -/
inductive ElemTy
  | container (ePlaceholder : Nat) | word
  deriving DecidableEq, Repr, Inhabited

/-- src/inline.rs:200-205; the validator is its state (src/attr.rs:690-692). -/
structure AttributesState where
  elemTy : ElemTy
  endAttr : Nat
  validLines : Nat
  validator : Attr.State
  deriving DecidableEq, Repr, Inhabited

/-- src/inline.rs:214-229. `openers` has its top first; `events` is in queue order. -/
structure IP where
  input : Input
  openers : List (Opener × Nat) := []
  events : List Event := []
  verbatim : Option VerbatimState := none
  attributes : Option AttributesState := none
  storeCowstrs : List Bytes := []
  storeAttributes : List Attr.Attributes := []
  deriving DecidableEq, Repr, Inhabited

/-- src/inline.rs:231-241 -/
inductive Flow
  | cont | next | more | done
  deriving DecidableEq, Repr, Inhabited

/-- src/inline.rs:244-254 -/
def IP.new (src : Bytes) : IP := { input := { src := src } }

/-- src/inline.rs:256-258 -/
def IP.feedLine (p : IP) (line : Span) (last : Bool) : R IP := do
  let i ← p.input.feedLine line last
  pure { p with input := i }

/-- src/inline.rs:260-268 -/
def IP.reset (p : IP) : R IP := do
  dassert p.events.isEmpty
  dassert p.attributes.isNone
  dassert p.verbatim.isNone
  pure { p with input := p.input.reset, openers := [], storeCowstrs := [], storeAttributes := [] }

/-- src/inline.rs:270-272 -/
def IP.pushSp (p : IP) (k : EventKind) (span : Span) : IP := { p with events := p.events ++ [⟨k, span⟩] }

/-- src/inline.rs:274-277 -/
def IP.push (p : IP) (k : EventKind) : IP := p.pushSp k p.input.span

/-- `self.events[i].kind = k` (e.g. src/inline.rs:566, 724) -/
def setKind (evs : List Event) (i : Nat) (k : EventKind) : R (List Event) := do
  let e ← idx evs i
  pure (evs.set i { e with kind := k })

/-- `self.events[i].span.end = e` (src/inline.rs:534, 569) -/
def setStop (evs : List Event) (i : Nat) (stop : Nat) : R (List Event) := do
  let e ← idx evs i
  pure (evs.set i { e with span := ⟨e.span.start, stop⟩ })

/-- `let EventKind::Enter(c) = self.events[i].kind else { panic!() }` (src/inline.rs:318, 1195) -/
def enterAt (evs : List Event) (i : Nat) : R Container := do
  let e ← idx evs i
  match e.kind with
  | .enter c => pure c
  | _ => .error .panic

/-- `matches!(c, Verbatim | RawFormat { .. } | InlineMath | DisplayMath)` (src/inline.rs:321-324) -/
def Container.isVerbatim : Container → Bool
  | .verbatim | .rawFormat _ | .inlineMath | .displayMath => true
  | _ => false

/-! ### Attributes -/

/-- Local variables of the loop in `resume_attributes` (src/inline.rs:456-464). -/
structure AttrScan where
  state : AttributesState
  lineNext : Nat
  lineStart : Nat
  lineEnd : Nat
  deriving DecidableEq, Repr, Inhabited

/-- src/inline.rs:466-503: the loop. `res` is the result of the last call of the validator. Returns
the final scan and whether more input is needed. -/
def attrLoop (src : Bytes) (ahead : List Span) (complete : Bool) (fuel : Nat) (s : AttrScan)
    (res : Option Nat) : R (AttrScan × Bool) :=
  match fuel with
  | 0 => .error .fuel
  | fuel + 1 =>
    match res with
    | some len =>
      if len = 0 then .ok (s, false)
      else do
        let endAttr := s.lineStart + len
        let st := { s.state with validLines := s.lineNext, endAttr := endAttr }
        let tail ← strSlice src endAttr src.length
        if tail.head? = some (c! '{') then
          let part ← strSlice src endAttr s.lineEnd
          let (res, v) ← Attr.validatorParse .start 0 part
          attrLoop src ahead complete fuel
            { s with state := { st with validator := v }, lineStart := endAttr } res
        else pure ({ s with state := st }, false)
    | none =>
      match ahead[s.lineNext]? with
      | some l => do
        let part ← strSlice src l.start l.stop
        let (res, v) ← Attr.validatorParse s.state.validator 0 part
        attrLoop src ahead complete fuel
          { state := { s.state with validator := v }, lineNext := s.lineNext + 1,
            lineStart := l.start, lineEnd := l.stop } res
      | none => .ok (s, !complete)

/-- src/inline.rs:513-520: parse the attributes line by line; the parse errors of
`expect("should be valid")` are panics. -/
def parseAttrLines (src : Bytes) (endAttr : Nat) (p : Attr.Parser) : List Span → R Attr.Attributes
  | [] => .ok p.attrs
  | l :: ls => do
    let line ← strSlice src l.start (min endAttr l.stop)
    let (p, r) ← p.parse line
    match r with
    | .ok _ => parseAttrLines src endAttr p ls
    | .error _ => .error .unwrap

/-- src/inline.rs:524-527: pop `n` lines and make each the current line. -/
def Input.popLines (i : Input) : Nat → R Input
  | 0 => .ok i
  | n + 1 =>
    match i.ahead with
    | [] => .error .unwrap
    | l :: rest => do
      let i ← { i with ahead := rest }.setCurrentLine l
      i.popLines n

/-- src/inline.rs:552-565: an image opener `![` is split, since only `[` opens the span. Returns the
events and the index of the placeholder. -/
def splitBang (evs : List Event) (e : Nat) (opener : Event) (text : Bytes) : List Event × Nat :=
  if text = b! "![" then
    ((evs.take e ++ ⟨.str, ⟨opener.span.start, opener.span.start + 1⟩⟩ :: evs.drop e).set (e + 2)
      { opener with span := ⟨opener.span.start + 1, opener.span.stop⟩ }, e + 1)
  else (evs, e)

/-- src/inline.rs:550-568: text in brackets with attributes becomes a span. -/
def attachSpan (src : Bytes) (evs : List Event) (e : Nat) (opener : Event) : R (List Event) :=
  if opener.kind = .str then do
    let text ← strSlice src opener.span.start opener.span.stop
    let evs' ← setKind (splitBang evs e opener text).1 ((splitBang evs e opener text).2 + 1) (.enter .span)
    let last ← csub evs'.length 1
    setKind evs' last (.exit .span)
  else .ok evs

/-- src/inline.rs:547-570: attach attributes to the container whose placeholder is at `e`. -/
def IP.attachContainer (p : IP) (attrEvent : Event) (e : Nat) : R IP := do
  let _ ← idx p.events e
  let opener ← idx (p.events.set e attrEvent) (e + 1)
  let evs ← attachSpan p.input.src (p.events.set e attrEvent) e opener
  let last ← csub evs.length 1
  let evs ← setStop evs last p.input.span.stop
  pure { p with events := evs }

/-- src/inline.rs:531-577: emit the attributes. -/
def IP.emitAttributes (p : IP) (elemTy : ElemTy) (attrs : Attr.Attributes) : R IP :=
  if attrs.isEmpty then
    match elemTy with
    | .container _ => do
      let last ← csub p.events.length 1
      let evs ← setStop p.events last p.input.span.stop
      pure { p with events := evs }
    | .word => .ok p
  else
    let index := p.storeAttributes.length
    let p := { p with storeAttributes := p.storeAttributes ++ [attrs] }
    match elemTy with
    | .container e => p.attachContainer ⟨.attributes true index, p.input.span⟩ e
    | .word => .ok ((p.push (.attributes false index)).push .empty)

/-- Bound for the loop of `resume_attributes`.
(bounds the loop of src/inline.rs:468-502; not in the code) -/
def attrFuel (src : Bytes) (ahead : List Span) : Nat := src.length + ahead.length + 2

/-- src/inline.rs:456-464: first line to validate. -/
def Input.attrStartLine (i : Input) (startAttr : Nat) (first : Bool) : R (Nat × Nat × Nat) :=
  if first then .ok (0, startAttr, i.spanLine.stop)
  else do
    let last ← csub i.ahead.length 1
    let l ← idx i.ahead last
    pure (i.ahead.length, l.start, l.stop)

/-- src/inline.rs:489-501: more lines are needed; the opening brace is not consumed. -/
def IP.moreAttributes (p : IP) (startAttr : Nat) (state : AttributesState) (openerEaten : Bool) :
    R (IP × Option Flow) :=
  if openerEaten then do
    let rest ← byteSlice p.input.src startAttr p.input.spanLine.stop
    pure ({ p with
      attributes := some state
      input := { p.input with span := ⟨startAttr, startAttr⟩, lexer := Lex.Lexer.new rest } }, some .more)
  else .ok ({ p with attributes := some state }, some .more)

/-- src/inline.rs:505-579: after the scan. -/
def IP.finishAttributes (p : IP) (startAttr : Nat) (s : AttrScan) : R (IP × Option Flow) :=
  if startAttr = s.state.endAttr then .ok (p, none)
  else do
    let attrs ← parseAttrLines p.input.src s.state.endAttr ⟨[], .start⟩
      (⟨startAttr, p.input.spanLine.stop⟩ :: p.input.ahead.take s.state.validLines)
    let i ← p.input.popLines s.lineNext
    let rest ← byteSlice i.src s.state.endAttr s.lineEnd
    let p' ← { p with input := { i with
      span := ⟨startAttr, s.state.endAttr⟩, lexer := Lex.Lexer.new rest } }.emitAttributes s.state.elemTy attrs
    pure (p', some .cont)

/-- src/inline.rs:447-580 -/
def IP.resumeAttributes (p : IP) (state : AttributesState) (openerEaten first : Bool) :
    R (IP × Option Flow) := do
  let startAttr ← csub p.input.span.stop (if openerEaten then 1 else 0)
  let tail ← strSlice p.input.src startAttr p.input.src.length
  dassert (tail.head? == some (c! '{'))
  let l ← p.input.attrStartLine startAttr first
  let part ← strSlice p.input.src l.2.1 l.2.2
  let r ← Attr.validatorParse state.validator 0 part
  let r ← attrLoop p.input.src p.input.ahead p.input.complete
    (attrFuel p.input.src p.input.ahead)
    ⟨{ state with validator := r.2 }, l.1, l.2.1, l.2.2⟩ r.1
  if r.2 then p.moreAttributes startAttr r.1.state openerEaten
  else p.finishAttributes startAttr r.1

/-- src/inline.rs:433-445 -/
def IP.aheadAttributes (p : IP) (elemTy : ElemTy) (openerEaten : Bool) : R (IP × Option Flow) := do
  let e ← csub p.input.span.stop (if openerEaten then 1 else 0)
  p.resumeAttributes ⟨elemTy, e, 0, .start⟩ openerEaten true

/-- src/inline.rs:420-431 -/
def IP.parseAttributes (p : IP) (first : Lex.Token) : R (IP × Option Flow) :=
  if first.kind = .opn .brace then
    match p.attributes with
    | some state => { p with attributes := none }.resumeAttributes state true false
    | none => p.aheadAttributes .word true
  else do
    dassert p.attributes.isNone
    pure (p, none)

/-- `self.ahead_attributes(..).or(Some(Continue))` (src/inline.rs:338-345, 850) -/
def IP.aheadAttributesOr (p : IP) (elemTy : ElemTy) : R (IP × Option Flow) := do
  let r ← p.aheadAttributes elemTy false
  pure (r.1, some (r.2.getD .cont))

/-! ### Verbatim -/

/-- src/inline.rs:311-317: a raw format after the closing backticks; tells whether there is one. -/
def IP.rawFormat (p : IP) (eventOpener : Nat) : R (IP × Bool) := do
  let r ← p.input.aheadRawFormat
  match r.1 with
  | some sp => do
    let format ← strSlice r.2.src sp.start sp.stop
    let evs ← setKind p.events eventOpener (.enter (.rawFormat format))
    pure ({ p with
      events := evs
      input := { r.2 with span := ⟨r.2.span.start, sp.stop + 1⟩ } }, true)
  | none => pure ({ p with input := r.2 }, false)

/-- src/inline.rs:325-328: whitespace between backticks and the closing backticks is removed. -/
def truncateVerbatim (v : VerbatimState) (evs : List Event) : R (List Event) :=
  match v.nonWsLast with
  | some (.seq .backtick, skip) =>
    if skip ≤ evs.length then .ok (evs.take skip) else .error .slice
  | _ => .ok evs

/-- src/inline.rs:332-346: attributes after a closed verbatim. -/
def IP.afterVerbatim (p : IP) (eventOpener : Nat) : R (IP × Option Flow) :=
  if (p.input.peekKind).1 = some (.opn .brace) then do
    let e ← csub eventOpener 1
    { p with input := (p.input.peekKind).2 }.aheadAttributesOr (.container e)
  else .ok ({ p with input := (p.input.peekKind).2 }, some .cont)

/-- src/inline.rs:308-346: close the verbatim. -/
def IP.closeVerbatim (p : IP) (v : VerbatimState) : R (IP × Option Flow) := do
  let r ← p.rawFormat v.eventOpener
  let ty ← enterAt r.1.events v.eventOpener
  dassert ty.isVerbatim
  let evs ← truncateVerbatim v r.1.events
  let q : IP := { r.1 with
    events := evs ++ [⟨.exit ty, r.1.input.span⟩]
    input := { r.1.input with lexer := { r.1.input.lexer with verbatim := false } }
    verbatim := none }
  if r.2 then pure (q, some .cont) else q.afterVerbatim v.eventOpener

/-- src/inline.rs:349-367: whitespace in verbatim; dropped directly before backticks at the start. -/
def IP.verbatimWs (p : IP) (v : VerbatimState) : IP :=
  if !v.nonWsEncountered then
    let p' := { p with input := (p.input.peek).2 }
    if (p.input.peek).1.any (fun t => t.kind == .seq .backtick && t.len != v.lenOpener) then p'
    else p'.push .str
  else p.push .str

/-- src/inline.rs:348-369: continue the verbatim. -/
def IP.continueVerbatim (p : IP) (v : VerbatimState) (first : Lex.Token) : R (IP × Option Flow) := do
  let text ← byteSlice p.input.src p.input.span.start p.input.span.stop
  if text.all isWs then pure (p.verbatimWs v, some .cont)
  else
    pure ({ p with verbatim := some { v with
      nonWsEncountered := true
      nonWsLast := some (first.kind, p.events.length + 1) } }.push .str, some .cont)

/-- src/inline.rs:379-390, 398-402: does the byte at `i` (if `end ≥ d`) differ from a backslash. -/
def notEscaped (src : Bytes) (stop d : Nat) : R Bool :=
  if d ≤ stop then do
    let c ← idx src (stop - d)
    pure (c != c! '\\')
  else .ok true

/-- src/inline.rs:372-383: span of the preceding text if it ends with an unescaped `$`. -/
def IP.dollarSpan (p : IP) : R (Option Span) :=
  match p.events.getLast? with
  | none => .ok none
  | some e =>
    if e.kind = .str then
      if e.span.stop = p.input.span.start then do
        let i ← csub (e.span.start + e.span.len) 1
        let c ← idx p.input.src i
        if c = c! '$' then
          let ok ← notEscaped p.input.src e.span.stop 2
          pure (if ok then some e.span else none)
        else pure none
      else .ok none
    else .ok none

/-- src/inline.rs:384-390: is the `$` before the last one also unescaped. -/
def isDisplayMath (src : Bytes) (sp : Span) : R Bool :=
  if 1 < sp.len then do
    let i ← csub (sp.start + sp.len) 2
    let c ← idx src i
    if c = c! '$' then notEscaped src sp.stop 3 else pure false
  else .ok false

/-- src/inline.rs:384-398: dollars at the end of the preceding text make the verbatim a math. -/
def IP.mathSpan (p : IP) : Option Span → R (IP × Container)
  | none => .ok (p, .verbatim)
  | some sp => do
    let disp ← isDisplayMath p.input.src sp
    let border ← csub sp.stop (if disp then 2 else 1)
    pure ({ p with
      events := p.events.dropLast ++ [⟨.str, ⟨sp.start, border⟩⟩]
      input := { p.input with span := ⟨border, p.input.span.stop⟩ } },
      if disp then .displayMath else .inlineMath)

/-- src/inline.rs:370-414: open a verbatim, turning preceding dollars into math. -/
def IP.openVerbatim (p : IP) (first : Lex.Token) : R (IP × Option Flow) :=
  if first.len < 256 then do
    let sp ← p.dollarSpan
    let r ← p.mathSpan sp
    let q := r.1.pushSp .placeholder ⟨r.1.input.span.start, r.1.input.span.start⟩
    pure ({ q with
      input := { q.input with lexer := { q.input.lexer with verbatim := true } }
      verbatim := some { eventOpener := q.events.length, lenOpener := first.len }
      attributes := none }.push (.enter r.2), some .cont)
  else .ok (p, none)

/-- src/inline.rs:298-418 -/
def IP.parseVerbatim (p : IP) (first : Lex.Token) : R (IP × Option Flow) :=
  match p.verbatim with
  | some v =>
    if v.lenOpener = first.len ∧ first.kind = .seq .backtick then p.closeVerbatim v
    else p.continueVerbatim v first
  | none =>
    if first.kind = .seq .backtick then p.openVerbatim first else .ok (p, none)

/-! ### Autolinks, symbols, footnote references -/

/-- src/inline.rs:584-603: length of the url, whether terminated by `>`, whether it looks like a
url or email. -/
def scanAutolink : Bytes → Nat × Bool × Bool
  | [] => (0, false, false)
  | c :: cs =>
    if c = c! '<' then (0, false, false)
    else if c = c! '>' then (0, true, false)
    else
      let url := c == c! ':' || c == c! '@'
      if isWs c then (0, false, url)
      else ((scanAutolink cs).1 + 1, (scanAutolink cs).2.1, url || (scanAutolink cs).2.2)

/-- src/inline.rs:605-612: the events of an autolink with an address of length `len`. -/
def IP.pushAutolink (p : IP) (len : Nat) : R (IP × Option Flow) := do
  let lexer ← p.input.lexer.skipAhead (len + 1)
  let u ← strSlice p.input.src p.input.span.stop (p.input.span.stop + len)
  pure ({ p with
    events := p.events ++ [⟨.enter (.autolink u), p.input.span⟩,
      ⟨.str, ⟨p.input.span.stop, p.input.span.stop + len⟩⟩,
      ⟨.exit (.autolink u), ⟨p.input.span.stop + len, p.input.span.stop + len + 1⟩⟩]
    input := { p.input with
      lexer := lexer
      span := ⟨p.input.span.stop + len, p.input.span.stop + len + 1⟩ } }, some .cont)

/-- src/inline.rs:582-616 -/
def IP.parseAutolink (p : IP) (first : Lex.Token) : R (IP × Option Flow) :=
  if first.kind = .sym .lt then do
    let a ← p.input.lexer.ahead
    if (scanAutolink a).2.1 && (scanAutolink a).2.2 then p.pushAutolink (scanAutolink a).1
    else pure (p, none)
  else .ok (p, none)

/-- src/inline.rs:630 -/
def isSymbolChar (c : UInt8) : Bool := isAlnum c || c == c! '-' || c == c! '+' || c == c! '_'

/-- src/inline.rs:620-635: length of the symbol name, terminated, valid. -/
def scanSymbol : Bytes → Nat × Bool × Bool
  | [] => (0, false, true)
  | c :: cs =>
    if c = c! ':' then (0, true, true)
    else
      let ok := isSymbolChar c
      if isWs c then (0, false, ok)
      else ((scanSymbol cs).1 + 1, (scanSymbol cs).2.1, ok && (scanSymbol cs).2.2)

/-- src/inline.rs:637-642, 682-690: an atom made from the `len` bytes ahead and a terminator. -/
def IP.pushNamed (p : IP) (len : Nat) (a : Bytes → Atom) : R (IP × Option Flow) := do
  let lexer ← p.input.lexer.skipAhead (len + 1)
  let s ← strSlice p.input.src p.input.span.stop (p.input.span.stop + len)
  pure ({ p with input := { p.input with
    lexer := lexer
    span := ⟨p.input.span.start, p.input.span.stop + len + 1⟩ } }.push (.atom (a s)), some .cont)

/-- src/inline.rs:618-646 -/
def IP.parseSymbol (p : IP) (first : Lex.Token) : R (IP × Option Flow) :=
  if first.kind = .sym .colon then do
    let a ← p.input.lexer.ahead
    if (scanSymbol a).2.1 && (scanSymbol a).2.2 then p.pushNamed (scanSymbol a).1 .symbol
    else pure (p, none)
  else .ok (p, none)

/-- src/inline.rs:666-681: length of the label, terminated by `]`. -/
def scanFootnote : Bytes → Nat × Bool
  | [] => (0, false)
  | c :: cs =>
    if c = c! '[' then (0, false)
    else if c = c! ']' then (0, true)
    else if c = c! '\n' then (0, false)
    else ((scanFootnote cs).1 + 1, (scanFootnote cs).2)

/-- src/inline.rs:666-688: after `[`, with `^` peeked. -/
def IP.footnoteLabel (p : IP) : R (IP × Option Flow) := do
  dassert ((p.input.eat).1 == some ⟨.sym .caret, 1⟩)
  let a ← (p.input.eat).2.lexer.ahead
  if (scanFootnote a).2 then
    ({ p with input := (p.input.eat).2 } : IP).pushNamed (scanFootnote a).1 .footnoteReference
  else pure ({ p with input := (p.input.eat).2 }, none)

/-- src/inline.rs:648-691 -/
def IP.parseFootnoteReference (p : IP) (first : Lex.Token) : R (IP × Option Flow) :=
  if first.kind = .opn .bracket then
    if (p.input.peekKind).1 = some (.sym .caret) then
      ({ p with input := (p.input.peekKind).2 } : IP).footnoteLabel
    else .ok ({ p with input := (p.input.peekKind).2 }, none)
  else .ok (p, none)

/-! ### Delimited containers -/

/-- src/inline.rs:768-771: does the event contribute to the text of a link. -/
def isLinkText (e : Event) : Bool :=
  match e.kind with
  | .str => true
  | .atom .escape => false
  | .atom _ => true
  | _ => false

/-- src/inline.rs:766-784: the text of a link without label as its label. -/
def textSpec (src : Bytes) (spec : Bytes) (span : Span) : List Event → R Bytes
  | [] => do
    let s ← strSlice src span.start span.stop
    pure (spec ++ s)
  | e :: es =>
    if isLinkText e then
      if e.kind = .atom .softbreak ∨ e.kind = .atom .hardbreak then do
        let s ← strSlice src span.start span.stop
        textSpec src (spec ++ s ++ b! " ") ⟨e.span.stop, e.span.stop⟩ es
      else if span.stop = e.span.start then textSpec src spec ⟨span.start, e.span.stop⟩ es
      else do
        let s ← strSlice src span.start span.stop
        textSpec src (spec ++ s) e.span es
    else textSpec src spec span es

/-- `str::split('\n')` (used at src/inline.rs:792) -/
def splitLines (cur : Bytes) : Bytes → List Bytes
  | [] => [cur]
  | c :: cs => if c = c! '\n' then cur :: splitLines [] cs else splitLines (cur ++ [c]) cs

/-- src/inline.rs:791-801 `append`: lines are joined, by a space if not inline. -/
def appendSpec (inline : Bool) (spec : Bytes) (firstPart : Bool) : List Bytes → Bytes × Bool
  | [] => (spec, firstPart)
  | s :: ss =>
    if s.isEmpty then appendSpec inline spec firstPart ss
    else appendSpec inline
      ((if !inline && !firstPart then spec ++ b! " " else spec) ++ s) false ss

/-- src/inline.rs:786-813: link specification spread over several lines. -/
def multilineSpec (src : Bytes) (inline : Bool) (spec : Bytes) (firstPart : Bool) (span : Span) :
    List Event → R Bytes
  | [] => do
    let s ← strSlice src span.start span.stop
    pure (appendSpec inline spec firstPart (splitLines [] s)).1
  | e :: es =>
    if span.stop = e.span.start then
      multilineSpec src inline spec firstPart ⟨span.start, e.span.stop⟩ es
    else do
      let s ← strSlice src span.start span.stop
      multilineSpec src inline (appendSpec inline spec firstPart (splitLines [] s)).1
        (appendSpec inline spec firstPart (splitLines [] s)).2 e.span es

/-- src/inline.rs:820-825 -/
def linkContainer (image inline : Bool) (i : Nat) : Container :=
  match image, inline with
  | false, false => .referenceLink i
  | false, true => .inlineLink i
  | true, false => .referenceImage i
  | true, true => .inlineImage i

/-- src/inline.rs:755-816: the specification of a link. -/
def IP.linkSpec (p : IP) (eOpener eventSpan : Nat) (inline : Bool) : R Bytes := do
  let eo ← idx p.events eOpener
  let spanSpec : Span := ⟨eo.span.stop, p.input.span.start⟩
  let multiline := eo.span.start < p.input.spanLine.start
  if spanSpec.isEmpty && !inline then
    let n ← csub eOpener eventSpan
    let n ← csub n 2
    textSpec p.input.src [] ⟨0, 0⟩ ((p.events.drop (eventSpan + 1)).take n)
  else if multiline then
    multilineSpec p.input.src inline [] true ⟨eo.span.stop, eo.span.stop⟩
      (p.events.drop (eOpener + 1))
  else strSlice p.input.src spanSpec.start spanSpec.stop

/-- src/inline.rs:755-833: close a link. -/
def IP.closeLink (p : IP) (eOpener eventSpan : Nat) (image inline : Bool) : R IP := do
  let spec ← p.linkSpec eOpener eventSpan inline
  let c := linkContainer image inline p.storeCowstrs.length
  let p := { p with storeCowstrs := p.storeCowstrs ++ [spec] }
  let evs ← setKind p.events eventSpan (.enter c)
  let i ← csub eOpener 1
  let e ← idx evs i
  let evs := evs.set i ⟨.exit c, ⟨e.span.start, p.input.span.start + 1⟩⟩
  pure { p with events := evs.take eOpener }

/-- src/inline.rs:732-747: after `]`, a `[` or `(` follows: a link may follow. -/
def IP.openLink (p : IP) (ty : SpanType) (eOpener : Nat) (d : Lex.Delimiter) : IP :=
  { p with
    openers := (Opener.link eOpener (ty == SpanType.image) (d == Lex.Delimiter.paren),
      p.events.length + 1) :: p.openers
    events := p.events ++ [⟨.str, p.input.span⟩, ⟨.str, (p.input.resetSpan.eat).2.span⟩]
    input := (p.input.resetSpan.eat).2 }

/-- src/inline.rs:836-853: attributes following a closed container. -/
def IP.afterClose (p : IP) (opener : Opener) (eAttr : Nat) : R (IP × Option Flow) :=
  if (p.input.peekKind).1 = some (.opn .brace) then
    ({ p with input := (p.input.peekKind).2 } : IP).aheadAttributesOr
      (if opener = .doubleQuoted ∨ opener = .singleQuoted then .word else .container eAttr)
  else .ok ({ p with input := (p.input.peekKind).2 }, some .cont)

/-- src/inline.rs:721-853: close the opener `opener` (already removed from the stack). -/
def IP.closeOpener (p : IP) (opener : Opener) (eAttr eOpener : Nat) : R (IP × Option Flow) :=
  match DelimEventKind.ofOpener opener with
  | .container c => do
    let evs ← setKind p.events eOpener (.enter c)
    ({ p with events := evs ++ [⟨.exit c, p.input.span⟩] } : IP).afterClose opener eAttr
  | .quote ty => do
    let evs ← setKind p.events eOpener (.atom (.quote ty true))
    ({ p with events := evs ++ [⟨.atom (.quote ty false), p.input.span⟩] } : IP).afterClose opener eAttr
  | .span ty =>
    if (p.input.peekKind).1 = some (.opn .bracket) then
      .ok ({ p with input := (p.input.peekKind).2 }.openLink ty eOpener .bracket, some .cont)
    else if (p.input.peekKind).1 = some (.opn .paren) then
      .ok ({ p with input := (p.input.peekKind).2 }.openLink ty eOpener .paren, some .cont)
    else ({ p with input := (p.input.peekKind).2 }.push .str).afterClose opener eAttr
  | .link eventSpan image inline => do
    let p ← p.closeLink eOpener eventSpan image inline
    p.afterClose opener eAttr

/-- `rposition`: the innermost opener closed by `k` and the openers below it.
(src/inline.rs:694-698) -/
def findOpener (k : Lex.Kind) : List (Opener × Nat) → Option ((Opener × Nat) × List (Opener × Nat))
  | [] => none
  | o :: os => if o.1.closedBy k then some (o, os) else findOpener k os

/-- src/inline.rs:698-703: index for attributes and index of the opening event. -/
def openerEvents (opener : Opener) (e : Nat) : R (Nat × Nat) :=
  match opener with
  | .link eventSpan _ _ => do
    let a ← csub eventSpan 1
    pure (a, e)
  | _ => .ok (e, e + 1)

/-- `matches!(opener, Opener::Link { .. } | Opener::Span { .. })` (src/inline.rs:706) -/
def Opener.isLinkOrSpan : Opener → Bool
  | .link .. | .span _ => true
  | _ => false

/-- src/inline.rs:711-716 -/
def Input.wsBefore (i : Input) : Bool :=
  match i.src[i.span.start - 1]? with
  | some c => isWs c
  | none => false

/-- src/inline.rs:694-854: try to close an opener. -/
def IP.tryClose (p : IP) (first : Lex.Token) : R (IP × Option Flow) :=
  match findOpener first.kind p.openers with
  | none => .ok (p, none)
  | some (o, below) => do
    let e ← openerEvents o.1 o.2
    let last ← csub p.events.length 1
    if e.2 = last ∧ !o.1.isLinkOrSpan then pure (p, none)
    else if o.1.bidirectional && p.input.wsBefore then pure (p, none)
    else ({ p with openers := below } : IP).closeOpener o.1 e.1 e.2

/-- src/inline.rs:867-871 -/
def Input.wsBefore' (i : Input) : R Bool :=
  if 0 < i.span.start then do
    let c ← idx i.src (i.span.start - 1)
    pure (isWs c)
  else .ok false

/-- src/inline.rs:888-898: event for an opener that is not closed (yet). -/
def openerKind : Opener → EventKind
  | .singleQuoted => .atom (.quote .single false)
  | .doubleQuoted => .atom (.quote .double true)
  | _ => .str

/-- src/inline.rs:855-899: try to open a container. -/
def IP.tryOpen (p : IP) (first : Lex.Token) : R (IP × Option Flow) :=
  match Opener.fromToken first.kind with
  | none => .ok (p, none)
  | some opener => do
    let a ← p.input.lexer.ahead
    let wsAfter := match a with | [] => true | c :: _ => isWs c
    if opener.bidirectional && wsAfter then pure (p, none)
    else
      let wsBefore ← p.input.wsBefore'
      if opener = .singleQuoted ∧ p.events.getLast?.any (fun e => e.kind == .str) ∧ !wsBefore then
        pure (p, none)
      else
        pure ({ p with
          openers := (opener, p.events.length) :: p.openers
          events := p.events ++ [⟨.placeholder, ⟨p.input.span.start, p.input.span.start⟩⟩,
            ⟨openerKind opener, p.input.span⟩] }, some .cont)

/-- `r.or_else(|| f)` for parsers that change the state. (the chain of src/inline.rs:279-296) -/
def orElse (r : R (IP × Option Flow)) (f : IP → R (IP × Option Flow)) : R (IP × Option Flow) := do
  let r ← r
  match r.2 with
  | some fl => pure (r.1, some fl)
  | none => f r.1

/-- src/inline.rs:693-900 -/
def IP.parseContainer (p : IP) (first : Lex.Token) : R (IP × Option Flow) :=
  orElse (p.tryClose first) (fun p => p.tryOpen first)

/-! ### Atoms -/

/-- src/inline.rs:908-915: `n` ellipses, for `n` = span length / 3. -/
def IP.ellipses (p : IP) : Nat → IP
  | 0 => p
  | n + 1 =>
    let s := p.input.span.start
    let p := p.pushSp (.atom .ellipsis) ⟨s, s + 3⟩
    { p with input := { p.input with span := ⟨s + 3, p.input.span.stop⟩ } }.ellipses n

/-- src/inline.rs:922: `(1..).find(|n| (len - 2 * n) % 3 == 0)`. -/
def findEn (len n : Nat) : Nat → R Nat
  | 0 => .error .fuel
  | fuel + 1 => do
    let d ← csub len (2 * n)
    if d % 3 = 0 then pure n else findEn len (n + 1) fuel

/-- src/inline.rs:917-924: numbers of em and en dashes. -/
def dashes (len : Nat) : R (Nat × Nat) :=
  if len % 3 = 0 then .ok (len / 3, 0)
  else if len % 2 = 0 then .ok (0, len / 2)
  else do
    let n ← findEn len 1 3
    let d ← csub len (2 * n)
    pure (d / 3, n)

/-- src/inline.rs:925-932: push atoms of `w` bytes each. -/
def IP.repeatAtom (p : IP) (a : Atom) (w : Nat) : Nat → IP
  | 0 => p
  | n + 1 =>
    let s := p.input.span.start
    let p := p.pushSp (.atom a) ⟨s, s + w⟩
    { p with input := { p.input with span := ⟨s + w, p.input.span.stop⟩ } }.repeatAtom a w n

/-- src/inline.rs:902-955, the simple cases: the atom for a token. -/
def atomOf (k : Lex.Kind) : Option Atom :=
  match k with
  | .newline => some .softbreak
  | .hardbreak => some .hardbreak
  | .escape => some .escape
  | .nbsp => some .nbsp
  | .opn .braceQuote1 => some (.quote .single true)
  | .sym .quote1 | .cls .braceQuote1 => some (.quote .single false)
  | .opn .braceQuote2 => some (.quote .double true)
  | .sym .quote2 | .cls .braceQuote2 => some (.quote .double false)
  | _ => none

/-- src/inline.rs:902-955 -/
def IP.parseAtom (p : IP) (first : Lex.Token) : R (IP × Option Flow) :=
  if first.kind = .seq .period then .ok (p.ellipses (p.input.span.len / 3), none)
  else if first.kind = .seq .hyphen ∧ 2 ≤ first.len then do
    let d ← dashes first.len
    pure ((p.repeatAtom .emDash 3 d.1).repeatAtom .enDash 2 d.2, some .cont)
  else match atomOf first.kind with
    | some a => .ok (p.push (.atom a), some .cont)
    | none => .ok (p, none)

/-- src/inline.rs:279-296, once a token is eaten. -/
def IP.parseToken (p : IP) (first : Lex.Token) : R (IP × Flow) := do
  let r ←
    orElse (orElse (orElse (orElse (orElse (orElse (p.parseVerbatim first)
      (fun p => p.parseAttributes first))
      (fun p => p.parseAutolink first))
      (fun p => p.parseSymbol first))
      (fun p => p.parseFootnoteReference first))
      (fun p => p.parseContainer first))
      (fun p => p.parseAtom first)
  match r.2 with
  | some f => pure (r.1, f)
  | none => pure (r.1.push .str, .cont)

/-- src/inline.rs:279-296 -/
def IP.parseEvent (p : IP) : R (IP × Flow) :=
  match (p.input.resetSpan.eat).1 with
  | some first => { p with input := (p.input.resetSpan.eat).2 }.parseToken first
  | none =>
    .ok ({ p with input := (p.input.resetSpan.eat).2 }, if p.input.last then .done else .next)

/-! ### Iterator -/

/-- src/inline.rs:958-969: merge following text and placeholders. -/
def mergeStr (span : Span) : List Event → Span × List Event
  | [] => (span, [])
  | e :: es =>
    if (e.kind = .str ∨ e.kind = .placeholder) ∧ span.stop = e.span.start then
      mergeStr ⟨span.start, e.span.stop⟩ es
    else (span, e :: es)

/-- Index of the last byte satisfying `f` (`rposition`). (used at src/inline.rs:988-990) -/
def rposition (f : UInt8 → Bool) (s : Bytes) : Option Nat :=
  match (s.reverse.findIdx? f) with
  | some i => some (s.length - 1 - i)
  | none => none

/-- src/inline.rs:987-1023 -/
def IP.applyWordAttributes (p : IP) (sp : Span) : R (IP × Event) := do
  let s ← strSlice p.input.src sp.start sp.stop
  match rposition isWs s with
  | some i =>
    let w := sp.start + i + 1
    pure ({ p with events := ⟨.str, ⟨w, sp.stop⟩⟩ :: p.events }, ⟨.str, ⟨sp.start, w⟩⟩)
  | none =>
    match p.events with
    | [] => .error .unwrap
    | attr :: rest =>
      if sp.isEmpty then pure ({ p with events := rest }, attr)
      else
        match rest with
        | [] => .error .unwrap
        | empty :: rest =>
          dassert (empty.kind == .empty)
          pure ({ p with events :=
            ⟨.enter .span, ⟨sp.start, sp.start⟩⟩ :: ⟨.str, sp⟩ :: ⟨.exit .span, attr.span⟩ :: rest },
            attr)

/-- `matches!(self.events.front(), Some(Attributes { container: false, .. }))`
(src/inline.rs:971-977, 1209-1213) -/
def wordAttrFront (evs : List Event) : Bool :=
  match evs with
  | ⟨.attributes false _, _⟩ :: _ => true
  | _ => false

/-- src/inline.rs:957-985 -/
def IP.mergeStrEvents (p : IP) (sp : Span) : R (IP × Event) :=
  if wordAttrFront (mergeStr sp p.events).2 then
    { p with events := (mergeStr sp p.events).2 }.applyWordAttributes (mergeStr sp p.events).1
  else .ok ({ p with events := (mergeStr sp p.events).2 }, ⟨.str, (mergeStr sp p.events).1⟩)

/-- src/inline.rs:1169-1177: condition to parse more before emitting an event. -/
def IP.needMore (p : IP) : Bool :=
  p.events.isEmpty || !p.openers.isEmpty || p.verbatim.isSome || p.attributes.isSome
  || p.events.getLast?.any (fun e => e.kind == .str)

/-- src/inline.rs:1181-1186: go on with the next line. -/
def IP.nextLine (p : IP) (l : Span) (rest : List Span) : R IP := do
  let i ← { p.input with ahead := rest }.setCurrentLine l
  pure { p with input := i }

/-- src/inline.rs:1169-1190: the `while` loop. The result tells whether `next` goes on (`true`)
or returns `None` (`false`). -/
def IP.fill (fuel : Nat) (p : IP) : R (IP × Bool) :=
  match fuel with
  | 0 => .error .fuel
  | fuel + 1 =>
    if p.needMore then do
      let r ← p.parseEvent
      match r.2 with
      | .cont => IP.fill fuel r.1
      | .done => pure (r.1, true)
      | .next =>
        match r.1.input.ahead with
        | l :: rest => do
          let p ← r.1.nextLine l rest
          IP.fill fuel p
        | [] => pure (r.1, false)
      | .more => pure (r.1, false)
    else .ok (p, true)

/-- src/inline.rs:1192-1203: automatically close unclosed verbatim. -/
def IP.autoClose (p : IP) : R IP :=
  match p.verbatim with
  | none => .ok p
  | some v => do
    let ty ← enterAt p.events v.eventOpener
    dassert ty.isVerbatim
    pure { p with
      verbatim := none
      input := { p.input with lexer := { p.input.lexer with verbatim := false } }
      events := p.events ++ [⟨.exit ty, p.input.span⟩] }

/-- Bound for the loop of `fill`: every step eats a token or pops a line.
(bounds src/inline.rs:1169-1190; not in the code) -/
def IP.fillFuel (p : IP) : Nat := (p.input.src.length - p.input.span.stop) + p.input.ahead.length + 2

/-- src/inline.rs:1205-1221: emit the event `e`, already removed from the queue; `none` if there is
nothing to emit. -/
def IP.emit (p : IP) (e : Event) : R (IP × Option Event) :=
  match e.kind with
  | .str =>
    if e.span.isEmpty && !wordAttrFront p.events then .ok (p, none)
    else do
      let r ← p.mergeStrEvents e.span
      pure (r.1, some r.2)
  | .placeholder => .ok (p, none)
  | _ => .ok (p, some e)

/-- src/inline.rs:1168-1222 `next`; `fuel` bounds the recursion. -/
def IP.next (fuel : Nat) (p : IP) : R (IP × Option Event) :=
  match fuel with
  | 0 => .error .fuel
  | fuel + 1 => do
    let r ← p.fill p.fillFuel
    if r.2 then do
      let p ← r.1.autoClose
      match p.events with
      | [] => pure (p, none)
      | e :: rest => do
        let r ← ({ p with events := rest } : IP).emit e
        match r.2 with
        | some e => pure (r.1, some e)
        | none => IP.next fuel r.1
    else pure (r.1, none)

/-- Bound for the number of events the parser can still emit: every byte yields at most three.
(bounds src/lib.rs:2268; not in the code) -/
def IP.eventFuel (p : IP) : Nat :=
  (p.events.map (fun e => e.span.len + 3)).sum + 3 * p.input.src.length + 4

/-- src/inline.rs:1168-1222 `Iterator::next` -/
def IP.nextEvent (p : IP) : R (IP × Option Event) := IP.next p.eventFuel p

end Jotdown.Inline
