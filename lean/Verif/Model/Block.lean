import Verif.Model.Attr
import Verif.Model.Lex
import Verif.Model.Numbers
/-! # Model of src/block.rs -/
namespace Jotdown.Block
open Jotdown

/-! ## Types -/

/-- src/block.rs:56-63 -/
inductive Atom
  | blankline | attributes | thematicBreak
  deriving DecidableEq, Repr, Inhabited

/-- src/block.rs:66-83 `Leaf`; `u16` and `u32` fields are naturals. -/
inductive Leaf
  | paragraph
  | heading (level : Nat) (hasSection : Bool) (pos : Nat)
  | descriptionTerm
  | tableCell (a : Alignment)
  | caption
  | linkDefinition (label : Bytes)
  | codeBlock (language : Bytes)
  deriving DecidableEq, Repr, Inhabited

/-- src/block.rs:98-102 -/
inductive ListItemKind
  | task (checked : Bool) | description | list
  deriving DecidableEq, Repr, Inhabited

/-- src/block.rs:113-116 -/
structure ListNumber where
  numbering : Numbering
  value : Nat
  deriving DecidableEq, Repr, Inhabited

/-- src/block.rs:105-110 -/
inductive ListType
  | unordered (b : UInt8)
  | ordered (n : ListNumber) (s : NumStyle)
  | task (b : UInt8)
  | description
  deriving DecidableEq, Repr, Inhabited

/-- src/block.rs:85-95 -/
inductive Container
  | document
  | blockquote
  | div (cls : Bytes)
  | list (ty : ListType) (tight : Bool)
  | listItem (k : ListItemKind)
  | footnote (label : Bytes)
  | table
  | tableRow (head : Bool)
  | section (pos : Nat)
  deriving DecidableEq, Repr, Inhabited

/-- src/block.rs:35-38 -/
inductive Node
  | container (c : Container)
  | leaf (l : Leaf)
  deriving DecidableEq, Repr, Inhabited

/-- src/block.rs:26-32 -/
inductive EventKind
  | enter (n : Node) | inline | exit (n : Node) | atom (a : Atom) | stale
  deriving DecidableEq, Repr, Inhabited

/-- src/block.rs:20-23 -/
structure Event where
  kind : EventKind
  span : Span
  deriving DecidableEq, Repr, Inhabited

/-- src/block.rs:923-926 -/
inductive FenceKind
  | div | codeBlock (c : UInt8)
  deriving DecidableEq, Repr, Inhabited

/-- src/block.rs:930-960 -/
inductive Kind
  | atom (a : Atom)
  | paragraph
  | heading (level : Nat)
  | fenced (indent fenceLength : Nat) (kind : FenceKind) (spec : Bytes) (hasClosingFence : Bool)
      (nestedRaw : Option (UInt8 × Nat))
  | definition (indent : Nat) (footnote : Bool) (label : Bytes) (lastBlankline : Bool)
  | blockquote
  | listItem (indent : Nat) (ty : ListType) (lastBlankline : Bool)
  | table (caption blankline : Bool)
  deriving DecidableEq, Repr, Inhabited

/-! ## Lines -/

/-- Length of the first line of `s` including its newline: what `chars.find(|c| *c == '\n')`
consumes (src/block.rs:1318). -/
def lineLen : Bytes → Nat
  | [] => 0
  | c :: cs => if c = c! '\n' then 1 else 1 + lineLen cs

theorem lineLen_pos {s : Bytes} (h : s ≠ []) : 0 < lineLen s := by
  cases s with
  | nil => exact absurd rfl h
  | cons c cs => unfold lineLen; split <;> omega

theorem lineLen_le (s : Bytes) : lineLen s ≤ s.length := by
  induction s with
  | nil => simp [lineLen]
  | cons c cs ih => unfold lineLen; simp only [List.length_cons]; split <;> omega

/-- src/block.rs:1311-1327 `lines`; `start` is the offset of `rest` in the source. -/
def linesFrom (start : Nat) (rest : Bytes) : List Span :=
  match _h : rest with
  | [] => []
  | c :: cs =>
    ⟨start, start + lineLen (c :: cs)⟩
      :: linesFrom (start + lineLen (c :: cs)) ((c :: cs).drop (lineLen (c :: cs)))
termination_by rest.length
decreasing_by
  have h1 := lineLen_pos (s := c :: cs) (by simp)
  simp only [List.length_drop, List.length_cons]
  omega

/-- src/block.rs:1311-1327 `lines` -/
def lines (src : Bytes) : List Span := linesFrom 0 src

/-! ## Identification of a block from its first line -/

/-- `chars.next().is_none_or(|c| c.is_ascii_whitespace())`
(used at src/block.rs:990, 996, 1038, 1042, 1195) -/
def noneOrWs (s : Bytes) : Bool :=
  match s with
  | [] => true
  | c :: _ => isWs c

/-- src/block.rs:1116-1126, the loop; `n` counts the dashes and asterisks.
Simplification: the `i32` counter is unbounded. -/
def thematicLoop (n : Nat) : Bytes → Bool
  | [] => 3 ≤ n
  | c :: cs =>
    if c = c! '-' ∨ c = c! '*' then thematicLoop (n + 1) cs
    else if isWs c then thematicLoop n cs
    else false

/-- src/block.rs:1116-1126 -/
def isThematicBreak (chars : Bytes) : Bool := thematicLoop 1 chars

/-- src/block.rs:1129-1131 -/
def isRomanLowerDigit (c : UInt8) : Bool :=
  c == c! 'i' || c == c! 'v' || c == c! 'x' || c == c! 'l' || c == c! 'c' || c == c! 'd'
  || c == c! 'm'

/-- src/block.rs:1133-1135 -/
def isRomanUpperDigit (c : UInt8) : Bool :=
  c == c! 'I' || c == c! 'V' || c == c! 'X' || c == c! 'L' || c == c! 'C' || c == c! 'D'
  || c == c! 'M'

/-- src/block.rs:1145-1158: numbering chosen from the first character. -/
def numberingOf (first : UInt8) : Option Numbering :=
  if isDigit first then some .decimal
  else if isRomanLowerDigit first then some .romanLower
  else if isRomanUpperDigit first then some .romanUpper
  else if isLower first then some .alphaLower
  else if isUpper first then some .alphaUpper
  else none

/-- src/block.rs:1160-1164 -/
def maxLen : Numbering → Nat
  | .alphaLower | .alphaUpper => 1
  | .decimal => 19
  | .romanLower | .romanUpper => 13

/-- src/block.rs:1170-1176 -/
def isNumDigit : Numbering → UInt8 → Bool
  | .decimal => isDigit
  | .alphaLower => isLower
  | .alphaUpper => isUpper
  | .romanLower => isRomanLowerDigit
  | .romanUpper => isRomanUpperDigit

/-- src/block.rs:1180-1193: style from the character after the number. -/
def styleOf (startParen : Bool) (postNum : UInt8) : Option NumStyle :=
  if startParen then (if postNum = c! ')' then some .parenParen else none)
  else if postNum = c! ')' then some .paren
  else if postNum = c! '.' then some .period
  else none

/-- src/block.rs:1166-1207: rest of `maybe_ordered_list_item` once the numbering is known; `chars`
is the input after the first digit. All inspected characters are ASCII, so characters are bytes. -/
def orderedRest (line : Bytes) (startParen : Bool) (numbering : Numbering) (chars : Bytes) :
    R (Option (ListNumber × NumStyle × Nat)) :=
  let lenNum := 1 + Lex.countWhile (isNumDigit numbering) (chars.take (maxLen numbering - 1))
  match chars.drop (lenNum - 1) with
  | [] => .ok none
  | postNum :: after =>
    match styleOf startParen postNum with
    | none => .ok none
    | some style =>
      let lenStyle := (if startParen then 1 else 0) + 1
      if noneOrWs after then do
        let len := lenNum + lenStyle
        let marker ← strSlice line 0 len
        let num ← style.number marker
        let value ← numbering.parseNumber num
        pure (some (⟨numbering, value⟩, style, len))
      else .ok none

/-- src/block.rs:1128-1208 -/
def maybeOrderedListItem (line : Bytes) : R (Option (ListNumber × NumStyle × Nat)) :=
  match line with
  | [] => .error .unwrap
  | c :: cs =>
    if c = c! '(' then
      match cs with
      | [] => .ok none
      | first :: chars =>
        match numberingOf first with
        | none => .ok none
        | some n => orderedRest line true n chars
    else
      match numberingOf c with
      | none => .ok none
      | some n => orderedRest line false n cs

/-- `str::find(c)`: index of the first occurrence. (used at src/block.rs:1018) -/
def findByte (c : UInt8) : Bytes → Option Nat
  | [] => none
  | d :: ds => if d = c then some 0 else (findByte c ds).map (· + 1)

/-- src/block.rs:1005-1017: arm for `|`. -/
def identTable (lineT : Bytes) : Bool :=
  2 ≤ lineT.length && (b! "|").isSuffixOf lineT && !(b! "\\|").isSuffixOf lineT

/-- src/block.rs:1018-1034: arm for `[`; `chars` is the line after `[`. -/
def identDefinition (indent : Nat) (chars : Bytes) : R (Option (Kind × Span)) :=
  match findByte (c! ']') chars with
  | none => .ok none
  | some l => do
    let after ← strSlice chars (l + 1) chars.length
    if after.head? = some (c! ':') then
      let label ← strSlice chars 0 l
      let footnote := label.head? == some (c! '^')
      let label ← strSlice label (if footnote then 1 else 0) label.length
      pure (some (.definition indent footnote label false, ⟨0, indent + 3 + l⟩))
    else pure none

/-- src/block.rs:1039-1042: does the rest of the line (after the bullet and one more character)
make it a task list item. -/
def isTask (chars : Bytes) : Bool :=
  match chars with
  | a :: b :: c :: rest =>
    a == c! '[' && (b == c! 'x' || b == c! 'X' || b == c! ' ') && c == c! ']' && noneOrWs rest
  | _ => false

/-- src/block.rs:1038-1062: arm for bullets; `chars` is the line after the bullet. -/
def identBullet (indent : Nat) (b : UInt8) (chars : Bytes) : Option (Kind × Span) :=
  if (match chars with | [] => true | c :: _ => c == c! ' ') then
    if isTask (chars.drop 1) then some (.listItem indent (.task b) false, ⟨indent, indent + 5⟩)
    else some (.listItem indent (.unordered b) false, ⟨indent, indent + 1⟩)
  else none

/-- src/block.rs:1071-1097: arm for fences; `chars` is the line after its first character `f`. -/
def identFence (indent : Nat) (f : UInt8) (line lineT chars : Bytes) : R (Option (Kind × Span)) := do
  let fenceLength := 1 + Lex.countWhile (· == f) chars
  let spec ← strSlice lineT fenceLength lineT.length
  let spec := trimStart spec
  let validSpec := if f = c! ':' then spec.all Attr.isName
    else !spec.any isWs && !spec.any (· == c! '`')
  if validSpec && 3 ≤ fenceLength then
    pure (some (.fenced indent fenceLength (if f = c! ':' then .div else .codeBlock f) spec false none,
      ⟨indent, indent + line.length⟩))
  else pure none

/-- src/block.rs:986-1109: the `match first`; `first :: chars` is the line without indentation. -/
def identMatch (indent : Nat) (line lineT : Bytes) (first : UInt8) (chars : Bytes) :
    R (Option (Kind × Span)) :=
  if first = c! '\n' then .ok (some (.atom .blankline, ⟨indent, indent + 1⟩))
  else if first = c! '#' then
    .ok (if noneOrWs (chars.dropWhile (· == c! '#')) then
      some (.heading (Lex.countWhile (· == c! '#') line),
        ⟨indent, indent + Lex.countWhile (· == c! '#') line⟩)
    else none)
  else if first = c! '>' then
    .ok (if noneOrWs chars then some (.blockquote, ⟨indent, indent + 1⟩) else none)
  else if first = c! '{' then do
    let v ← Attr.valid line
    pure (if v = lineT.length then some (.atom .attributes, ⟨indent, indent + line.length⟩) else none)
  else if first = c! '|' then
    .ok (if identTable lineT then some (.table false false, ⟨indent, indent⟩) else none)
  else if first = c! '[' then identDefinition indent chars
  else if (first = c! '-' ∨ first = c! '*') ∧ isThematicBreak chars then
    .ok (some (.atom .thematicBreak, ⟨indent, indent + lineT.length⟩))
  else if first = c! '-' ∨ first = c! '*' ∨ first = c! '+' then .ok (identBullet indent first chars)
  else if first = c! ':' ∧ noneOrWs chars then
    .ok (some (.listItem indent .description false, ⟨indent, indent + 1⟩))
  else if first = c! '`' ∨ first = c! ':' ∨ first = c! '~' then
    identFence indent first line lineT chars
  else do
    let r ← maybeOrderedListItem line
    pure (r.map fun (num, style, len) =>
      (.listItem indent (.ordered num style) false, ⟨indent, indent + len⟩))

/-- src/block.rs:968-1114 `IdentifiedBlock::new` -/
def identify (line0 : Bytes) : R (Kind × Span) :=
  let line := line0.dropWhile (fun c => isWs c && c != c! '\n')
  let indent := line0.length - line.length
  let lineT := trimEnd line
  match line with
  | [] => .ok (.atom .blankline, ⟨indent, indent⟩)
  | first :: chars => do
    let r ← identMatch indent line lineT first chars
    pure (r.getD (.paragraph, ⟨indent, indent⟩))

/-! ## Continuation of a block -/

/-- `line.trim_matches(ascii whitespace).is_empty()` (used at src/block.rs:312, 1229-1231, 1258) -/
def isBlank (line : Bytes) : Bool := line.all isWs

/-- Number of leading whitespace bytes: `line.len() - line.trim_start_matches(..).len()`.
(used at src/block.rs:1237-1238, 1251-1252) -/
def leadingWs (line : Bytes) : Nat := Lex.countWhile isWs line

/-- src/block.rs:1263-1290: arm of `continues` for an open fence. -/
def fenceContinues (indent fenceLength : Nat) (kind : FenceKind) (spec : Bytes) (closing : Bool)
    (nested : Option (UInt8 × Nat)) (next : Kind) : Kind :=
  match next with
  | .fenced _ l k sp _ _ =>
    match nested with
    | some (c, nl) =>
      if FenceKind.codeBlock c = k ∧ nl ≤ l ∧ sp.isEmpty then
        .fenced indent fenceLength kind spec closing none
      else .fenced indent fenceLength kind spec closing nested
    | none =>
      if k = kind then .fenced indent fenceLength kind spec (decide (fenceLength ≤ l) && sp.isEmpty) none
      else if kind = .div then
        match k with
        | .codeBlock c => .fenced indent fenceLength kind spec closing (some (c, l))
        | .div => .fenced indent fenceLength kind spec closing none
      else .fenced indent fenceLength kind spec closing none
  | _ => .fenced indent fenceLength kind spec closing nested

/-- src/block.rs:1291-1305: arm of `continues` for a table without caption so far. -/
def tableContinues (caption blankline : Bool) (line : Bytes) : Bool × Kind :=
  let lineT := trim line
  if lineT.isEmpty then (true, .table caption true)
  else if (b! "^ ").isPrefixOf lineT then (true, .table true blankline)
  else (!blankline && (b! "|").isPrefixOf lineT && (b! "|").isSuffixOf lineT
      && !(b! "\\|").isSuffixOf lineT, .table caption blankline)

/-- src/block.rs:1213-1307 `Kind::continues`: whether `line` continues the block, and the updated
kind. -/
def Kind.continues (k : Kind) (line : Bytes) : R (Bool × Kind) :=
  match k with
  | .atom _ => .ok (false, k)
  | .fenced indent fl kind spec closing nested =>
    if closing then .ok (false, k) else do
      let (next, _) ← identify line
      pure (true, fenceContinues indent fl kind spec closing nested next)
  | .blockquote => do
    let (next, _) ← identify line
    pure (decide (next = .blockquote ∨ next = .paragraph), k)
  | .heading level => do
    let (next, _) ← identify line
    pure (decide (next = .paragraph ∨ next = .heading level), k)
  | .paragraph => .ok (!isBlank line, k)
  | .table caption blankline =>
    if caption then .ok (!isBlank line, k) else .ok (tableContinues caption blankline line)
  | .listItem indent ty lastBlank => do
    let (next, _) ← identify line
    let para := !lastBlank && decide (next = .paragraph)
    let lastBlank' := decide (next = .atom .blankline)
    pure (lastBlank' || decide (indent < leadingWs line) || para, .listItem indent ty lastBlank')
  | .definition indent footnote label lastBlank =>
    if footnote then do
      let (next, _) ← identify line
      let para := !lastBlank && decide (next = .paragraph)
      let lastBlank' := decide (next = .atom .blankline)
      pure (decide (indent < leadingWs line) || lastBlank' || para,
        .definition indent footnote label lastBlank')
    else .ok (line.head? == some (c! ' ') && !isBlank line, k)

/-- src/block.rs:912: `lines.take_while(|l| kind.continues(l)).count()`, and the kind afterwards.
Lines are sliced lazily (src/block.rs:293). -/
def measure (src : Bytes) (k : Kind) : List Span → R (Kind × Nat)
  | [] => .ok (k, 0)
  | sp :: sps => do
    let line ← strSlice src sp.start sp.stop
    let (b, k') ← k.continues line
    if b then
      let (k'', n) ← measure src k' sps
      pure (k'', n + 1)
    else pure (k', 0)

/-- src/block.rs:909-919 `MeteredBlock::new` on a nonempty list of lines. -/
def meteredBlock (src : Bytes) (first : Span) (rest : List Span) : R (Kind × Span × Nat) := do
  let l ← strSlice src first.start first.stop
  let (k, span) ← identify l
  let (k', n) ← measure src k rest
  pure (k', span, n + 1)

/-! ## Lists -/

/-- src/block.rs:120-143 `ambiguity` -/
def ListNumber.ambiguity (n : ListNumber) : R (Option ListNumber) :=
  match n.numbering with
  | .romanLower | .romanUpper =>
    let digit : Option Bytes :=
      if n.value = 1 then some (b! "i")
      else if n.value = 5 then some (b! "v")
      else if n.value = 10 then some (b! "x")
      else if n.value = 50 then some (b! "l")
      else if n.value = 100 then some (b! "c")
      else if n.value = 500 then some (b! "d")
      else if n.value = 1000 then some (b! "m")
      else none
    match digit with
    | none => .ok none
    | some d => do
      let v ← Numbering.alphaLower.parseNumber d
      pure (some ⟨if n.numbering = .romanLower then .alphaLower else .alphaUpper, v⟩)
  | _ => .ok none

/-- src/block.rs:151-177 `ListType::continues` -/
def ListType.continues (self other : ListType) : R (Option (ListType × ListType)) :=
  if self = other then .ok (some (self, other)) else
  match self, other with
  | .ordered n0 s0, .ordered n1 s1 =>
    if n0.numbering = n1.numbering ∧ s0 = s1 then .ok (some (self, other))
    else if s0 = s1 then do
      let a0 ← n0.ambiguity
      match a0 with
      | some na0 =>
        if na0.numbering = n1.numbering then
          let v ← u64 (na0.value + 1)
          pure (if v = n1.value then some (.ordered na0 s0, other) else none)
        else pure none
      | none =>
        let a1 ← n1.ambiguity
        match a1 with
        | some na1 =>
          if n0.numbering = na1.numbering then
            let v ← u64 (n0.value + 1)
            pure (if v = na1.value then some (self, .ordered na1 s1) else none)
          else pure none
        | none => pure none
    else .ok none
  | _, _ => .ok none

/-- src/block.rs:181-193 -/
structure OpenList where
  tyStart : ListType
  tyPrev : ListType
  depth : Nat
  event : Nat
  deriving DecidableEq, Repr, Inhabited

/-- src/block.rs:196-213 `TreeParser`. The stacks `openLists`, `openSections` and `open_` have
their top first. -/
structure TP where
  src : Bytes
  prevBlankline : Bool := false
  prevLoose : Bool := false
  attrStart : Option Nat := none
  openLists : List OpenList := []
  openSections : List Nat := []
  alignments : List Alignment := []
  open_ : List Nat := []
  events : List Event := []
  deriving DecidableEq, Repr, Inhabited

/-- src/block.rs:258-263 -/
def TP.inline (p : TP) (span : Span) : TP := { p with events := p.events ++ [⟨.inline, span⟩] }

/-- src/block.rs:265-273; the returned index is `p.events.length`. -/
def TP.enter (p : TP) (n : Node) (span : Span) : TP :=
  { p with open_ := p.events.length :: p.open_, events := p.events ++ [⟨.enter n, span⟩] }

/-- `self.events[i].kind` must be an `Enter`: its node (src/block.rs:277-279, 535-537). -/
def TP.enterNode (p : TP) (i : Nat) : R Node := do
  let e ← idx p.events i
  match e.kind with
  | .enter n => pure n
  | _ => .error .panic

/-- src/block.rs:275-285; the returned index is `p.events.length`. -/
def TP.exit (p : TP) (span : Span) : R TP :=
  match p.open_ with
  | [] => .error .unwrap
  | i :: rest => do
    let n ← p.enterNode i
    pure { p with open_ := rest, events := p.events ++ [⟨.exit n, span⟩] }

/-- src/block.rs:883-887: `trim_start_matches` within the source. -/
def TP.trimStart (p : TP) (sp : Span) : R Span := do
  let s ← strSlice p.src sp.start sp.stop
  pure ⟨sp.start + leadingWs s, sp.stop⟩

/-- src/block.rs:889-893 -/
def TP.trimEnd (p : TP) (sp : Span) : R Span := do
  let s ← strSlice p.src sp.start sp.stop
  pure ⟨sp.start, sp.start + (Jotdown.trimEnd s).length⟩

/-- src/block.rs:895-897 -/
def TP.trim (p : TP) (sp : Span) : R Span := do
  let sp ← p.trimStart sp
  p.trimEnd sp

/-- src/block.rs:867-881 `close_list` (the list is already popped from `open_lists`). -/
def TP.closeList (p : TP) (l : OpenList) (pos : Nat) : R TP := do
  let e ← idx p.events l.event
  match e.kind with
  | .enter (.container (.list _ tight)) =>
    let e' : Event :=
      { e with kind := .enter (.container (.list l.tyStart (if p.prevLoose then true else tight))) }
    let p' : TP := { p with events := p.events.set l.event e' }
    p'.exit ⟨pos, pos⟩
  | _ => .error .panic

/-! ## Parsing of one block -/

/-- Number of trailing blank lines (src/block.rs:306-315). -/
def trailingBlank (src : Bytes) : List Span → R Nat
  | [] => .ok 0
  | sp :: sps => do
    let l ← strSlice src sp.start sp.stop
    if isBlank l then
      let n ← trailingBlank src sps
      pure (n + 1)
    else pure 0

/-- src/block.rs:298-319: ignore trailing blank lines after a table without caption. -/
def trimTable (src : Bytes) (kind : Kind) (ls : List Span) : R (List Span) :=
  match kind with
  | .table false true => do
    let n ← trailingBlank src ls.reverse
    let lc ← csub ls.length n
    pure (ls.take lc)
  | _ => .ok ls

/-- src/block.rs:343-354: skip the `#`s of a continuation line of a heading. -/
def headingLine (src : Bytes) (level : Nat) (line : Span) : R Span := do
  let l0 ← byteSlice src line.start line.stop
  let l1 := l0.dropWhile isWs
  let hash := Lex.countWhile (· == c! '#') l1
  let l2 := l1.drop hash
  let postWs := Lex.countWhile isWs l2
  let l3 := l2.drop postWs
  if 0 < postWs then
    dassert (level == hash)
    let n ← csub line.len l3.length
    pure ⟨line.start + n, line.stop⟩
  else pure line

/-- Map over a list of lines with a function that may panic.
(the loops of src/block.rs:496, 512, 523) -/
def mapLines (f : Span → R Span) : List Span → R (List Span)
  | [] => .ok []
  | s :: ss => do
    let s' ← f s
    let ss' ← mapLines f ss
    pure (s' :: ss')

/-- Apply to all lines but the first (`iter_mut().skip(1)`).
(the loops of src/block.rs:343, 589) -/
def mapTail (f : Span → R Span) : List Span → R (List Span)
  | [] => .ok []
  | s :: ss => do
    let ss' ← mapLines f ss
    pure (s :: ss')

/-- src/block.rs:333-357: skip the part of the lines that belongs to the block itself; `first` is
`lines[0]`. -/
def skipOuter (src : Bytes) (kind : Kind) (outerLen : Nat) (first : Span) (rest : List Span) :
    R (List Span) :=
  let first : Span := ⟨first.start + outerLen, first.stop⟩
  match kind with
  | .blockquote =>
    if first.start < first.stop then do
      let c ← idx src first.start
      if c = c! '\t' ∨ c = c! ' ' then pure (⟨first.start + 1, first.stop⟩ :: rest)
      else pure (first :: rest)
    else .ok (first :: rest)
  | .heading level => mapTail (headingLine src level) (first :: rest)
  | _ => .ok (first :: rest)

/-- src/block.rs:359-368: skip opening and closing fence. -/
def skipFence (kind : Kind) (ls : List Span) : R (List Span) :=
  match kind with
  | .fenced _ _ _ _ closing _ => do
    let l ← csub ls.length (if closing then 1 else 0)
    if 1 ≤ l then pure ((ls.take l).drop 1) else .error .slice
  | _ => .ok ls

/-- src/block.rs:380-392: does the block continue the innermost list; if so the updated list. -/
def listContinues (l : OpenList) (kind : Kind) : R (Option OpenList) :=
  match kind with
  | .listItem _ tyNew _ => do
    let r ← l.tyPrev.continues tyNew
    match r with
    | some (prevRes, newRes) =>
      pure (some { l with
        tyStart := if l.tyStart = l.tyPrev then prevRes else l.tyStart
        tyPrev := newRes })
    | none => pure none
  | _ => .ok none

/-- src/block.rs:370-398: close list if a non list item or a list item of new type appeared. -/
def TP.maybeCloseList (p : TP) (kind : Kind) (pos : Nat) : R TP :=
  match p.openLists with
  | [] => .ok p
  | l :: ls => do
    dassert (l.depth ≤ p.open_.length)
    if p.open_.length = l.depth then
      let r ← listContinues l kind
      match r with
      | some l' => pure { p with openLists := l' :: ls }
      | none =>
        let p' : TP := { p with openLists := ls }
        p'.closeList l pos
    else pure p

/-- `matches!(kind, Kind::ListItem { .. })` (src/block.rs:408) -/
def Kind.isListItem : Kind → Bool
  | .listItem .. => true
  | _ => false

/-- src/block.rs:410-417: set the innermost list to loose. -/
def TP.setLoose (p : TP) (l : OpenList) : R TP := do
  let e ← idx p.events l.event
  match e.kind with
  | .enter (.container (.list ty true)) =>
    pure { p with
      prevLoose := true
      events := p.events.set l.event { e with kind := .enter (.container (.list ty false)) } }
  | _ => pure p

/-- src/block.rs:405-420: set the innermost list to loose after a blankline. -/
def TP.looseAfterBlank (p : TP) (kind : Kind) : R TP :=
  match p.prevBlankline, p.openLists with
  | true, l :: _ => if p.open_.length ≤ l.depth ∨ kind.isListItem = false then p.setLoose l else .ok p
  | _, _ => .ok p

/-- src/block.rs:400-422: set list to loose if blankline discovered. -/
def TP.updateLoose (p : TP) (kind : Kind) : R TP :=
  if kind = .atom .blankline then .ok { p with prevBlankline := true }
  else do
    let p ← { p with prevLoose := false }.looseAfterBlank kind
    pure { p with prevBlankline := false }

/-- src/block.rs:47-53 -/
inductive Blk
  | atom (a : Atom) | leaf (l : Leaf) | container (c : Container)
  deriving DecidableEq, Repr, Inhabited

/-- src/block.rs:424-461. `span_start.start as u32` truncates. -/
def mkBlock (src : Bytes) (kind : Kind) (topLevel : Bool) (start : Nat) : R Blk :=
  match kind with
  | .atom a => .ok (.atom a)
  | .paragraph => .ok (.leaf .paragraph)
  | .heading level =>
    if level < 65536 then .ok (.leaf (.heading level topLevel (start % 4294967296)))
    else .error .level
  | .fenced _ _ (.codeBlock _) spec _ _ => .ok (.leaf (.codeBlock spec))
  | .fenced _ _ .div spec _ _ => .ok (.container (.div spec))
  | .definition _ false label _ => .ok (.leaf (.linkDefinition label))
  | .definition _ true label _ => .ok (.container (.footnote label))
  | .blockquote => .ok (.container .blockquote)
  | .listItem _ ty _ =>
    match ty with
    | .task _ => do
      let c ← idx src (start + 3)
      pure (.container (.listItem (.task (c != c! ' '))))
    | .description => .ok (.container (.listItem .description))
    | _ => .ok (.container (.listItem .list))
  | .table .. => .ok (.container .table)

/-! ## Leaves -/

/-- src/block.rs:495-502: remove the indentation of the fence from a line. -/
def fenceLine (src : Bytes) (indent : Nat) (line : Span) : R Span := do
  let l ← byteSlice src line.start line.stop
  let n := Lex.countWhile (fun c => c != c! '\n' && isWs c) l
  pure ⟨line.start + min indent n, line.stop⟩

/-- Replace the last line by its `trim_end`, if there is one. (src/block.rs:506-508, 529-532) -/
def TP.trimLast (p : TP) (ls : List Span) : R (List Span) :=
  match ls.getLast? with
  | none => .ok ls
  | some l => do
    let l' ← p.trimEnd l
    pure (ls.dropLast ++ [l'])

/-- src/block.rs:516-519: skip the first line if it is empty. -/
def skipEmptyFirst : List Span → List Span
  | l :: rest => if l.isEmpty then rest else l :: rest
  | [] => []

/-- src/block.rs:521-526: trim the ends of all lines of a link definition. -/
def TP.trimEndsOf (p : TP) (leaf : Leaf) (ls : List Span) : R (List Span) :=
  match leaf with
  | .linkDefinition _ => mapLines p.trimEnd ls
  | _ => .ok ls

/-- src/block.rs:495-533: trimming of the lines of a leaf. -/
def TP.leafLines (p : TP) (leaf : Leaf) (k : Kind) (ls : List Span) : R (List Span) :=
  match k with
  | .fenced indent _ _ spec _ _ => do
    let ls ← mapLines (fenceLine p.src indent) ls
    if spec.head? = some (c! '=') then p.trimLast ls else pure ls
  | _ => do
    let ls ← mapLines p.trimStart ls
    let ls ← p.trimEndsOf leaf (skipEmptyFirst ls)
    p.trimLast ls

/-- src/block.rs:541-561: close `n` sections; `i` is the loop counter. The exits are inserted
before a trailing run of block attributes. -/
def TP.closeSections (p : TP) (start : Nat) (i : Nat) : Nat → R TP
  | 0 => .ok p
  | n + 1 =>
    match p.open_ with
    | [] => .error .unwrap
    | o :: rest => do
      let node ← p.enterNode o
      match p.attrStart with
      | none =>
        let p' : TP := { p with open_ := rest, events := p.events ++ [⟨.exit node, ⟨start, start⟩⟩] }
        p'.closeSections start (i + 1) n
      | some a =>
        let e ← idx p.events a
        let pos := a + i
        if pos ≤ p.events.length then
          let ev : Event := ⟨.exit node, ⟨e.span.start, e.span.start⟩⟩
          let p' : TP := { p with
            open_ := rest
            events := p.events.take pos ++ ev :: p.events.drop pos }
          p'.closeSections start (i + 1) n
        else .error .index

/-- src/block.rs:535-569: open and close sections at a top-level heading. -/
def TP.sections (p : TP) (level : Nat) (start : Nat) : R TP := do
  let keep := p.openSections.dropWhile (fun l => decide (level ≤ l))
  let p ← p.closeSections start 0 (p.openSections.length - keep.length)
  let p := { p with openSections := level :: keep }
  pure (p.enter (.container (.section (start % 4294967296))) ⟨start, start⟩)

/-- src/block.rs:572-575 -/
def TP.inlines (p : TP) (ls : List Span) : TP :=
  (ls.filter (fun l => !l.isEmpty)).foldl TP.inline p

/-- src/block.rs:535-569: sections are opened by top-level headings only. -/
def TP.leafSections (p : TP) (leaf : Leaf) (k : Kind) (start : Nat) : R TP :=
  match k, leaf with
  | .heading level, .heading _ true _ => p.sections level start
  | _, _ => .ok p

/-- src/block.rs:487-577 -/
def TP.parseLeaf (p : TP) (leaf : Leaf) (k : Kind) (spanStart spanEnd : Span) (ls : List Span) :
    R TP := do
  let ls ← p.leafLines leaf k ls
  let p ← p.leafSections leaf k spanStart.start
  ((p.enter (.leaf leaf) spanStart).inlines ls).exit spanEnd

/-! ## Tables -/

/-- src/block.rs:766-775 -/
def isSeparatorCell (cell : Bytes) : Bool :=
  match cell with
  | [] => false
  | [a] => a == c! '-'
  | [_, _] => cell == b! ":-" || cell == b! "--" || cell == b! "-:"
  | a :: rest =>
    (a == c! '-' || a == c! ':')
    && (match rest.getLast? with | some z => z == c! '-' || z == c! ':' | none => false)
    && rest.dropLast.all (· == c! '-')

/-- src/block.rs:808-816: alignment of a separator cell. -/
def cellAlignment (cell : Bytes) : R Alignment := do
  let a ← idx cell 0
  let n ← csub cell.length 1
  let z ← idx cell n
  pure (match a == c! ':', z == c! ':' with
    | false, false => .unspecified
    | false, true => .right
    | true, false => .left
    | true, true => .center)

/-- Local variables of the loop over the tokens of a row (src/block.rs:750-755). -/
structure Row where
  pos : Nat
  cellStart : Nat
  separatorRow : Bool := true
  verbatim : Option Nat := none
  columnIndex : Nat := 0
  deriving DecidableEq, Repr, Inhabited

/-- src/block.rs:763-790: end of a cell at a `|`. -/
def TP.endCell (p : TP) (r : Row) (len : Nat) : R (TP × Row) := do
  let span ← p.trim ⟨r.cellStart, r.pos⟩
  let cell ← strSlice p.src span.start span.stop
  let sep := isSeparatorCell cell
  let align := (p.alignments[r.columnIndex]?).getD .unspecified
  let p := p.enter (.leaf (.tableCell align)) ⟨r.cellStart, r.cellStart⟩
  let p := p.inline span
  let p ← p.exit ⟨r.pos, r.pos + 1⟩
  pure (p, { r with
    separatorRow := r.separatorRow && sep
    cellStart := r.pos + len
    columnIndex := r.columnIndex + 1 })

/-- src/block.rs:755-799: loop over the tokens of a row. -/
def TP.rowLoop (p : TP) (fuel : Nat) (lex : Lex.Lexer) (r : Row) : R (TP × Row) :=
  match fuel with
  | 0 => .error .fuel
  | fuel + 1 =>
    match lex.nextTok with
    | (none, _) => .ok (p, r)
    | (some ⟨kind, len⟩, lex) =>
      match r.verbatim with
      | some l =>
        if kind = .seq .backtick ∧ len = l then
          p.rowLoop fuel { lex with verbatim := false } { r with verbatim := none, pos := r.pos + len }
        else p.rowLoop fuel lex { r with pos := r.pos + len }
      | none =>
        if kind = .sym .pipe then do
          let (p, r) ← p.endCell r len
          p.rowLoop fuel lex { r with pos := r.pos + len }
        else if kind = .seq .backtick then
          p.rowLoop fuel { lex with verbatim := true } { r with verbatim := some len, pos := r.pos + len }
        else p.rowLoop fuel lex { r with pos := r.pos + len }

/-- src/block.rs:803-818: alignments from the cells of a separator row. -/
def alignmentsOf (src : Bytes) : List Event → R (List Alignment)
  | [] => .ok []
  | e :: es =>
    if e.kind = .inline then do
      let cell ← strSlice src e.span.start e.span.stop
      let a ← cellAlignment cell
      let as ← alignmentsOf src es
      pure (a :: as)
    else alignmentsOf src es

/-- src/block.rs:822-844: set the alignments of the cells of the head row; `i` counts the enter and
exit events of cells. -/
def realign (als : List Alignment) (i : Nat) : List Event → List Event
  | [] => []
  | e :: es =>
    match e.kind with
    | .enter (.leaf (.tableCell _)) =>
      { e with kind := .enter (.leaf (.tableCell ((als[i / 2]?).getD .unspecified))) }
        :: realign als (i + 1) es
    | .exit (.leaf (.tableCell _)) =>
      { e with kind := .exit (.leaf (.tableCell ((als[i / 2]?).getD .unspecified))) }
        :: realign als (i + 1) es
    | _ => e :: realign als i es

/-- src/block.rs:821-857: make the previous row a head row. -/
def TP.setHeadRow (p : TP) (enterIdx exitIdx : Nat) : R TP := do
  let evs := p.events.take (enterIdx + 1) ++ realign p.alignments 0 (p.events.drop (enterIdx + 1))
  let e ← idx evs enterIdx
  match e.kind with
  | .enter (.container (.tableRow _)) =>
    let evs := evs.set enterIdx { e with kind := .enter (.container (.tableRow true)) }
    let e ← idx evs exitIdx
    match e.kind with
    | .exit (.container (.tableRow _)) =>
      pure { p with events := evs.set exitIdx { e with kind := .exit (.container (.tableRow true)) } }
    | _ => .error .panic
  | _ => .error .panic

/-- src/block.rs:740-861: one row, `last` is `last_row_event`. -/
def TP.parseRow (p : TP) (row : Span) (last : Option (Nat × Nat)) : R (TP × Option (Nat × Nat)) := do
  let rowEnter := p.events.length
  let p := p.enter (.container (.tableRow false)) ⟨row.start, row.start + 1⟩
  let rem ← byteSlice p.src (row.start + 1) row.stop
  let (p, r) ← p.rowLoop (rem.length + 1) (Lex.Lexer.new rem)
    { pos := row.start + 1, cellStart := row.start + 1 }
  if r.separatorRow && r.verbatim.isNone then
    let als ← alignmentsOf p.src (p.events.drop (rowEnter + 1))
    let p := { p with
      alignments := als
      open_ := p.open_.drop 1
      events := p.events.take rowEnter }
    match last with
    | some (en, ex) =>
      let p ← p.setHeadRow en ex
      pure (p, last)
    | none => pure (p, last)
  else
    let rowExit := p.events.length
    let p ← p.exit ⟨r.pos, r.pos⟩
    pure (p, some (rowEnter, rowExit))

/-- src/block.rs:738-862: loop over the rows. -/
def TP.parseRows (p : TP) (last : Option (Nat × Nat)) : List Span → R TP
  | [] => .ok p
  | row :: rows => do
    let row ← p.trim row
    if row.isEmpty then pure p
    else
      let (p, last) ← p.parseRow row last
      p.parseRows last rows

/-- src/block.rs:719-726: index of the caption line. -/
def captionLine (src : Bytes) : List Span → R Nat
  | [] => .ok 0
  | sp :: sps => do
    let l ← strSlice src sp.start sp.stop
    if (Jotdown.trimStart l).head? = some (c! '^') then pure 0
    else
      let n ← captionLine src sps
      pure (n + 1)

/-- src/block.rs:726-736: the caption; `ls` are the lines from the caption line on. -/
def TP.parseCaption (p : TP) (spanStart spanEnd : Span) (ls : List Span) : R TP :=
  match ls with
  | [] => .ok p
  | first :: rest => do
    let p := p.enter (.leaf .caption) spanStart
    let first ← p.trimStart first
    let first : Span := ⟨first.start + 2, first.stop⟩
    let ls ← p.trimLast (first :: rest)
    (ls.foldl TP.inline p).exit spanEnd

/-- src/block.rs:710-865 -/
def TP.parseTable (p : TP) (ls : List Span) (spanStart spanEnd : Span) : R TP := do
  let p := { p with alignments := [] }
  let p := p.enter (.container .table) spanStart
  let n ← captionLine p.src ls
  let p ← p.parseCaption spanStart spanEnd (ls.drop n)
  let p ← p.parseRows none (ls.take n)
  p.exit spanEnd

/-! ## Containers -/

/-- src/block.rs:590-608: number of bytes of a continuation line that belong to the container;
`src` is the line. -/
def prefixLen (k : Kind) (outerLen : Nat) (line : Bytes) : R Nat :=
  let lineT := Jotdown.trim line
  let whitespace := if lineT.isEmpty then 0 else leadingWs line
  match k with
  | .blockquote =>
    if lineT = b! ">" then .ok (whitespace + 1)
    else if lineT.head? = some (c! '>') then do
      let s ← strSlice lineT 1 lineT.length
      pure (match s with
        | c :: _ => if isWs c then whitespace + 2 else 0
        | [] => 0)
    else .ok 0
  | .listItem .. | .definition .. => .ok (min whitespace outerLen)
  | .fenced indent .. => .ok (min whitespace indent)
  | _ => .error .panic

/-- src/block.rs:589-614: strip the container prefix from a continuation line. -/
def containerLine (src : Bytes) (k : Kind) (outerLen : Nat) (sp : Span) : R Span := do
  let line ← strSlice src sp.start sp.stop
  let skip ← prefixLen k outerLen line
  let len := Lex.countWhile (· != c! '\n') line
  pure ⟨sp.start + min skip len, sp.stop⟩

/-- src/block.rs:617-620: no list is open at the current depth. -/
def TP.sameDepth (p : TP) : Bool :=
  match p.openLists with
  | [] => true
  | l :: _ => decide (l.depth < p.open_.length)

/-- src/block.rs:622-632: register the list that was just entered. -/
def TP.pushList (p : TP) (ty : ListType) (event : Nat) : R TP :=
  if p.open_.length < 65536 then
    .ok { p with openLists := ⟨ty, ty, p.open_.length, event⟩ :: p.openLists }
  else .error .depth

/-- src/block.rs:616-634: open a list if needed. -/
def TP.openList (p : TP) (k : Kind) (start : Nat) : R TP :=
  match k with
  | .listItem _ ty _ =>
    if p.sameDepth = true then
      (p.enter (.container (.list ty true)) ⟨start, start⟩).pushList ty p.events.length
    else .ok p
  | _ => .ok p

/-- src/block.rs:636-644: an empty description term, replaced later if the item starts with a
paragraph. -/
def TP.openTerm (p : TP) (c : Container) (spanStart : Span) (ls : List Span) :
    R (TP × Span × Option (Nat × Nat × Nat)) :=
  if c = .listItem .description then do
    let dt := p.events.length
    let p := p.enter (.leaf .descriptionTerm) spanStart
    let sp ← p.trimEnd spanStart
    let p ← p.exit ⟨sp.stop, sp.stop⟩
    let l0 ← idx ls 0
    pure (p, ⟨l0.start, l0.start⟩, some (dt, p.events.length, p.open_.length))
  else .ok (p, spanStart, none)

/-- Index of the first element satisfying `f` (`Iterator::position`).
(used at src/block.rs:660, 679) -/
def position (f : Event → Bool) : List Event → Option Nat
  | [] => none
  | e :: es => if f e then some 0 else (position f es).map (· + 1)

/-- src/block.rs:677-680: index of the first event of the details, after the term and blank lines. -/
def firstDetailOf (evs : List Event) (exitTerm : Nat) : Nat :=
  match position (fun e => e.kind != .atom .blankline) (evs.drop (exitTerm + 1)) with
  | some i => exitTerm + 1 + i
  | none => evs.length

/-- src/block.rs:681-684: position of the start of the details. -/
def detailPosOf (evs : List Event) (firstDetail : Nat) : R Nat :=
  match evs[firstDetail]? with
  | some e => .ok e.span.start
  | none =>
    match evs.getLast? with
    | some e => .ok e.span.stop
    | none => .error .unwrap

/-- src/block.rs:653-693: convert the first paragraph of a description item into its term. -/
def TP.convertTerm (p : TP) (c : Container) (emptyTerm enterDetail openDetail : Nat) : R TP :=
  let enterTerm := enterDetail + 1
  match p.events[enterTerm]? with
  | none => .ok p
  | some first =>
    if first.kind = .enter (.leaf .paragraph) then
      let evs := p.events.set enterTerm { first with kind := .enter (.leaf .descriptionTerm) }
      match position (fun e => e.kind = .exit (.leaf .paragraph)) (evs.drop (enterTerm + 1)) with
      | none => .error .panic
      | some inner => do
        let exitTerm := enterTerm + 1 + inner
        let ex ← idx evs exitTerm
        let evs := evs.set exitTerm { ex with kind := .exit (.leaf .descriptionTerm) }
        let e0 ← idx evs emptyTerm
        let evs := evs.set emptyTerm { e0 with kind := .stale }
        let e1 ← idx evs (emptyTerm + 1)
        let evs := evs.set (emptyTerm + 1) { e1 with kind := .stale }
        let et ← idx evs enterTerm
        let evs := evs.set enterTerm { et with span := e0.span }
        let firstDetail := firstDetailOf evs exitTerm
        let detailPos ← detailPosOf evs firstDetail
        -- the events enterTerm..firstDetail move one to the left
        let evs := evs.take enterDetail ++ (evs.drop enterTerm).take (firstDetail - enterTerm)
          ++ ⟨.enter (.container c), ⟨detailPos, detailPos⟩⟩ :: evs.drop firstDetail
        if openDetail < p.open_.length then
          pure { p with
            events := evs
            open_ := p.open_.set (p.open_.length - 1 - openDetail) (firstDetail - 1) }
        else .error .index
    else .ok p

/-- src/block.rs:697-705: close an open list of the container's children. -/
def TP.closeInnerList (p : TP) (pos : Nat) : R TP :=
  match p.openLists with
  | [] => .ok p
  | l :: ls => do
    dassert (l.depth ≤ p.open_.length)
    if p.open_.length = l.depth then
      let p' : TP := { p with prevBlankline := false, prevLoose := false, openLists := ls }
      p'.closeList l pos
    else pure p

/-- src/block.rs:652-695: only description items have a term. -/
def TP.endTerm (p : TP) (c : Container) (dt : Option (Nat × Nat × Nat)) : R TP :=
  match dt with
  | some (a, b, o) => p.convertTerm c a b o
  | none => .ok p

/-- What is left of a container after its children (src/block.rs:652-707). -/
def TP.endContainer (p : TP) (c : Container) (spanEnd : Span) (dt : Option (Nat × Nat × Nat)) :
    R TP := do
  let p ← p.endTerm c dt
  let p ← p.closeInnerList spanEnd.start
  p.exit spanEnd

/-- What precedes the children of a container (src/block.rs:588-646): the parser and the lines of
the children. -/
def TP.beginContainer (p : TP) (c : Container) (k : Kind) (spanStart : Span) (outerLen : Nat)
    (ls : List Span) : R (TP × List Span × Option (Nat × Nat × Nat)) := do
  let ls ← mapTail (containerLine p.src k outerLen) ls
  let p ← p.openList k spanStart.start
  let (p, spanStart, dt) ← p.openTerm c spanStart ls
  pure (p.enter (.container c) spanStart, ls, dt)

/-- src/block.rs:475-479 -/
def TP.setAttrStart (p : TP) (kind : Kind) : R TP :=
  if kind = .atom .attributes then
    match p.attrStart with
    | some _ => .ok p
    | none => do
      let n ← csub p.events.length 1
      pure { p with attrStart := some n }
  else .ok { p with attrStart := none }

/-- A block whose extent is known (src/block.rs:288-368): kind, spans, length of the outer part of
the first line, lines, and number of lines used. -/
structure Prepared where
  kind : Kind
  spanStart : Span
  spanEnd : Span
  outerLen : Nat
  ls : List Span
  lineCount : Nat
  deriving DecidableEq, Repr, Inhabited

/-- src/block.rs:321-328: span of the end of a block. -/
def endSpan (kind : Kind) (last : Span) : Span :=
  match kind with
  | .fenced _ _ _ _ true _ => last
  | _ => ⟨last.stop, last.stop⟩

/-- src/block.rs:289-368: measure the block and prepare its lines. -/
def prepare (src : Bytes) (first : Span) (rest : List Span) : R Prepared := do
  let (kind, span, n) ← meteredBlock src first rest
  let ls := (first :: rest).take n
  let spanStart : Span := ⟨span.start + first.start, span.stop + first.start⟩
  let ls ← trimTable src kind ls
  match ls with
  | [] => .error .index
  | l0 :: ltail =>
    let endLine := (l0 :: ltail).getLast (by simp)
    let spanEnd := endSpan kind endLine
    let outerLen ← csub spanStart.stop l0.start
    let ls' ← skipOuter src kind outerLen l0 ltail
    let ls' ← skipFence kind ls'
    pure ⟨kind, spanStart, spanEnd, outerLen, ls', ls.length⟩

/-- src/block.rs:370-422: list bookkeeping before a block. -/
def TP.beforeBlock (p : TP) (b : Prepared) : R TP := do
  let p ← p.maybeCloseList b.kind b.spanStart.start
  p.updateLoose b.kind

/-- src/block.rs:463-472: emit the events of a block; `container` is `parse_container`. -/
def TP.emit (p : TP) (container : Container → R TP) (blk : Blk) (b : Prepared) : R TP :=
  match blk with
  | .atom a => .ok { p with events := p.events ++ [⟨.atom a, b.spanStart⟩] }
  | .leaf l => p.parseLeaf l b.kind b.spanStart b.spanEnd b.ls
  | .container c => if c = .table then p.parseTable b.ls b.spanStart b.spanEnd else container c

mutual

/-- src/block.rs:288-485 `parse_block`; the result is the number of lines used. `fuel` bounds the
recursion (see `parse`). -/
def TP.parseBlock (fuel : Nat) (p : TP) (ls : List Span) (topLevel : Bool) : R (TP × Nat) :=
  match fuel with
  | 0 => .error .fuel
  | fuel + 1 =>
    match ls with
    | [] => .ok (p, 0)
    | first :: rest => do
      let b ← prepare p.src first rest
      let p ← p.beforeBlock b
      let blk ← mkBlock p.src b.kind topLevel b.spanStart.start
      let p ← p.emit (fun c => TP.parseContainer fuel p c b) blk b
      let p ← p.setAttrStart b.kind
      pure (p, b.lineCount)

/-- src/block.rs:579-708 `parse_container` -/
def TP.parseContainer (fuel : Nat) (p : TP) (c : Container) (b : Prepared) : R TP :=
  match fuel with
  | 0 => .error .fuel
  | fuel + 1 => do
    let (p, ls, dt) ← p.beginContainer c b.kind b.spanStart b.outerLen b.ls
    let p ← TP.parseChildren fuel p ls
    p.endContainer c b.spanEnd dt

/-- src/block.rs:647-650: the loop over the children. -/
def TP.parseChildren (fuel : Nat) (p : TP) (ls : List Span) : R TP :=
  match fuel with
  | 0 => .error .fuel
  | fuel + 1 =>
    match ls with
    | [] => .ok p
    | l :: ls => do
      let (p, n) ← TP.parseBlock fuel p (l :: ls) false
      TP.parseChildren fuel p ((l :: ls).drop n)

end

/-- src/block.rs:237-243: the top-level loop. -/
def TP.parseTop (fuel : Nat) (p : TP) (ls : List Span) : R TP :=
  match fuel with
  | 0 => .error .fuel
  | fuel + 1 =>
    match ls with
    | [] => .ok p
    | l :: ls => do
      let (p, n) ← TP.parseBlock fuel p (l :: ls) true
      if n = 0 then pure p
      else TP.parseTop fuel p ((l :: ls).drop n)

/-- src/block.rs:244-246: close the lists `ls`, which are all open lists. -/
def TP.closeAllLists (p : TP) (n : Nat) : List OpenList → R TP
  | [] => .ok { p with openLists := [] }
  | l :: ls => do
    let p ← { p with openLists := ls }.closeList l n
    p.closeAllLists n ls

/-- src/block.rs:248-250 -/
def TP.exitN (p : TP) (span : Span) : Nat → R TP
  | 0 => .ok p
  | n + 1 => do
    let p ← p.exit span
    p.exitN span n

/-- Loop bound: every nesting level and every block use up at least one byte or line.
(bounds the recursion of src/block.rs:288-485; not in the code) -/
def parseFuel (src : Bytes) : Nat := 6 * src.length + 4

/-- src/block.rs:232-256 `TreeParser::parse` (and 41-43 `parse`). -/
def parse (src : Bytes) : R (List Event) := do
  let p : TP := { src := src }
  let p := p.enter (.container .document) ⟨0, 0⟩
  let p ← TP.parseTop (parseFuel src) p (lines src)
  let p ← p.closeAllLists src.length p.openLists
  let p ← p.exitN ⟨src.length, src.length⟩ p.openSections.length
  let p ← p.exit ⟨src.length, src.length⟩
  dassert p.open_.isEmpty
  pure p.events

end Jotdown.Block
