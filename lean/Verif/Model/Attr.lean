import Verif.Model.Basic
/-! # Model of src/attr.rs -/
namespace Jotdown.Attr
open Jotdown

/-- src/attr.rs:801-820 -/
inductive State
  | start | whitespace | commentFirst | comment | commentNewline | classFirst | class
  | identifierFirst | identifier | key | valueFirst | value | valueQuoted | valueEscape
  | valueNewline | valueContinued | done | invalid
  deriving DecidableEq, Repr, Inhabited

/-- src/attr.rs:866-868 -/
def isName (c : UInt8) : Bool := isAlnum c || c == c! ':' || c == c! '_' || c == c! '-'

/-- src/attr.rs:823-863 `State::step`; the panicking arm is an error value. -/
def State.step (s : State) (c : UInt8) : R State :=
  match s with
  | .start => .ok (if c = c! '{' then .whitespace else .invalid)
  | .whitespace => .ok (
      if c = c! '}' then .done
      else if c = c! '.' then .classFirst
      else if c = c! '#' then .identifierFirst
      else if c = c! '%' then .commentFirst
      else if isName c then .key
      else if isWs c then .whitespace
      else .invalid)
  | .commentFirst | .comment | .commentNewline => .ok (
      if c = c! '%' then .whitespace
      else if c = c! '}' then .done
      else if c = c! '\n' then .commentNewline
      else .comment)
  | .classFirst => .ok (if isName c then .class else .invalid)
  | .identifierFirst => .ok (if isName c then .identifier else .invalid)
  | .class => .ok (
      if isName c then .class else if isWs c then .whitespace
      else if c = c! '}' then .done else .invalid)
  | .identifier => .ok (
      if isName c then .identifier else if isWs c then .whitespace
      else if c = c! '}' then .done else .invalid)
  | .value => .ok (
      if isName c then .value else if isWs c then .whitespace
      else if c = c! '}' then .done else .invalid)
  | .key => .ok (if isName c then .key else if c = c! '=' then .valueFirst else .invalid)
  | .valueFirst => .ok (
      if isName c then .value else if c = c! '"' then .valueQuoted else .invalid)
  | .valueQuoted => .ok (
      if c = c! '"' then .whitespace else if c = c! '\n' then .valueNewline
      else if c = c! '\\' then .valueEscape else .valueQuoted)
  | .valueEscape => .ok (if c = c! '\n' then .valueNewline else .valueQuoted)
  | .valueNewline | .valueContinued => .ok (
      if c = c! '"' then .whitespace else if c = c! '\n' then .valueNewline else .valueContinued)
  | .invalid | .done => .error .panic

/-- src/attr.rs:3-22 `valid`: the loop over the bytes with counter `n`. -/
def validLoop (st : State) (n : Nat) : Bytes → R (State × Nat)
  | [] => .ok (st, n)
  | c :: cs => do
    let st' ← st.step c
    if st' = .done ∨ st' = .invalid then pure (st', n + 1) else validLoop st' (n + 1) cs

/-- src/attr.rs:3-22 -/
def valid (src : Bytes) : R Nat := do
  let (st, n) ← validLoop .start 0 src
  pure (if st = .done then n else 0)

/-- src/attr.rs:690-692 (the struct has the single field `state`), 707-718 `Validator::parse`:
`some n` if finished after `n` bytes (0 means invalid), `none` if more input is needed. -/
def validatorParse (st : State) (n : Nat) : Bytes → R (Option Nat × State)
  | [] => .ok (none, st)
  | c :: cs => do
    let st' ← st.step c
    if st' = .done then pure (some (n + 1), st')
    else if st' = .invalid then pure (some 0, st')
    else validatorParse st' (n + 1) cs

/-- src/attr.rs:135-190 `AttributeKind` -/
inductive AttrKind
  | cls | id | pair (key : Bytes) | comment
  deriving DecidableEq, Repr, Inhabited

/-- src/attr.rs:195-202 `AttributeKind::key` -/
def AttrKind.key : AttrKind → Option Bytes
  | .cls => some (b! "class")
  | .id => some (b! "id")
  | .pair k => some k
  | .comment => none

/-- src/attr.rs:279 `AttributeElem`; an `AttributeValue` (29-31) is its raw string. -/
abbrev Elem := AttrKind × Bytes
/-- src/attr.rs:277 `Attributes`: a vector of elements. -/
abbrev Attributes := List Elem

/-- src/attr.rs:58-75 `AttributeValue::extend_raw`: append. -/
def extendRaw (raw s : Bytes) : Bytes := if raw.isEmpty then s else raw ++ s

/-- src/attr.rs:48-56 `AttributeValue::extend`: append, separated by a space. -/
def extend (raw s : Bytes) : Bytes :=
  if s.isEmpty then raw
  else extendRaw (if raw.isEmpty then raw else extendRaw raw (b! " ")) s

/-- Update the value of the last element (`self.attrs.0[self.attrs.len() - 1].1`,
src/attr.rs:763-775); panics if there is none. -/
def modifyLast (attrs : Attributes) (f : Bytes → Bytes) : R Attributes :=
  match attrs.getLast? with
  | none => .error .overflow
  | some (k, v) => .ok (attrs.dropLast ++ [(k, f v)])

/-- src/attr.rs:753-780: what happens when the state `st` is left; `content` is the text since the
last state change. -/
def flush (st : State) (content : Bytes) (attrs : Attributes) : R Attributes :=
  match st with
  | .class => .ok (attrs ++ [(.cls, content)])
  | .identifier => .ok (attrs ++ [(.id, content)])
  | .key => .ok (attrs ++ [(.pair content, [])])
  | .value | .valueContinued => modifyLast attrs (extend · content)
  | .valueQuoted => do
    let content ← strSlice content 1 content.length
    modifyLast attrs (extend · content)
  | .comment => modifyLast attrs (extendRaw · content)
  | .commentNewline => modifyLast attrs (extendRaw · (b! "\n"))
  | .commentFirst => .ok (attrs ++ [(.comment, [])])
  | _ => .ok attrs

/-- src/attr.rs:723-726 `Parser` -/
structure Parser where
  attrs : Attributes
  state : State
  deriving DecidableEq, Repr, Inhabited

/-- src/attr.rs:736-793 `Parser::parse`, the loop body from position `pos` on. The inner
`Except Nat Nat` is the Rust `Result<usize, usize>`. -/
def parseLoop (input : Bytes) (pos posPrev : Nat) (p : Parser) :
    Bytes → R (Parser × Except Nat Nat)
  | [] => .ok (p, .ok input.length)
  | c :: cs => do
    let stNext ← p.state.step c
    if stNext = .invalid then
      pure (p, .error pos)
    else
      let st := p.state
      let (attrs, posPrev) ←
        if st ≠ stNext ∧ st ≠ .valueEscape ∧ stNext ≠ .valueEscape then do
          let content ← strSlice input posPrev pos
          let attrs ← flush st content p.attrs
          pure (attrs, pos)
        else pure (p.attrs, posPrev)
      if stNext = .done then
        let ahead ← strSlice input (pos + 1) input.length
        if ahead.head? = some (c! '{') then
          parseLoop input (pos + 1) posPrev ⟨attrs, .start⟩ cs
        else pure (⟨attrs, .done⟩, .ok (pos + 1))
      else parseLoop input (pos + 1) posPrev ⟨attrs, stNext⟩ cs

/-- src/attr.rs:736-793 `Parser::parse` -/
def Parser.parse (p : Parser) (input : Bytes) : R (Parser × Except Nat Nat) :=
  parseLoop input 0 0 p input

/-- src/attr.rs:294-304 `Attributes::parse` -/
def parseAttributes (attrs : Attributes) (input : Bytes) : R (Except Nat Attributes) := do
  let input := trimEnd input
  let (p, res) ← Parser.parse ⟨attrs, .start⟩ input
  match res with
  | .error n => pure (.error n)
  | .ok n =>
    if n = input.length ∧ p.state = .done then pure (.ok p.attrs) else pure (.error n)

/-- src/attr.rs:457-463 `Attributes::try_from` -/
def tryFrom (s : Bytes) : R (Except Nat Attributes) := parseAttributes [] s

/-- src/attr.rs:319-323 `contains_key` -/
def containsKey (a : Attributes) (key : Bytes) : Bool := a.any fun e => e.1.key == some key

/-- src/attr.rs:352-371 `get_value` -/
def getValue (a : Attributes) (key : Bytes) : Option Bytes :=
  if key = b! "class" then
    let value := a.foldl (fun v e => if e.1.key == some (b! "class") then extend v e.2 else v) []
    if value.isEmpty then none else some value
  else (a.reverse.find? fun e => e.1.key == some key).map (·.2)

/-- src/attr.rs:654-686 `AttributePairsIter`: all items produced from the position at which
`before = attrs[..pos]` and `rest = attrs[pos..]`. -/
def pairsFrom (before : Attributes) : Attributes → List (Bytes × Bytes)
  | [] => []
  | (k, v) :: rest =>
    match k.key with
    | none => pairsFrom (before ++ [(k, v)]) rest
    | some key =>
      if before.any (fun e => e.1.key == some key) then pairsFrom (before ++ [(k, v)]) rest
      else if key = b! "class" then
        (key, rest.foldl (fun v e => if e.1.key == some (b! "class") then extend v e.2 else v) v)
          :: pairsFrom (before ++ [(k, v)]) rest
      else match rest.reverse.find? (fun e => e.1.key == some key) with
        | some e => (key, e.2) :: pairsFrom (before ++ [(k, v)]) rest
        | none => (key, v) :: pairsFrom (before ++ [(k, v)]) rest

/-- src/attr.rs:408-413 `unique_pairs` -/
def uniquePairs (a : Attributes) : List (Bytes × Bytes) := pairsFrom [] a

/-- src/attr.rs:111-126, the `for` loop over the backslashes of `ahead` (from index `i` on, where
`s = ahead[i..]`): the returned part and the new `ahead`, or none if the loop runs to its end. -/
def partAt (ahead : Bytes) (i : Nat) : Bytes → Option (Bytes × Bytes)
  | [] => none
  | c :: r =>
    if c = c! '\\' then
      match r with
      | [] => none
      | d :: _ =>
        if d = c! '\\' then some (ahead.take (i + 1), ahead.drop (i + 2))
        else if isPunct d then some (ahead.take i, ahead.drop (i + 1))
        else partAt ahead (i + 1) r
    else partAt ahead (i + 1) r

theorem partAt_lt (ahead : Bytes) (i : Nat) (s part rest : Bytes) (hs : s = ahead.drop i)
    (h : partAt ahead i s = some (part, rest)) : rest.length < ahead.length := by
  induction s generalizing i with
  | nil => simp [partAt] at h
  | cons c r ih =>
    have hlen : i < ahead.length := by
      have := congrArg List.length hs; simp at this; omega
    have hr : r = ahead.drop (i + 1) := by
      rw [← List.tail_drop, ← hs]; rfl
    unfold partAt at h
    split at h
    · split at h
      · simp at h
      · split at h
        · simp only [Option.some.injEq, Prod.mk.injEq] at h
          rw [← h.2, List.length_drop]; omega
        · split at h
          · simp only [Option.some.injEq, Prod.mk.injEq] at h
            rw [← h.2, List.length_drop]; omega
          · exact ih _ hr h
    · exact ih _ hr h

/-- src/attr.rs:43-45 `parts()`, src/attr.rs:110-128: all parts produced by the iterator. -/
def parts (ahead : Bytes) : List Bytes :=
  match _h : partAt ahead 0 ahead with
  | some (part, rest) => part :: parts rest
  | none => if ahead.isEmpty then [] else [ahead]
termination_by ahead.length
decreasing_by exact partAt_lt ahead 0 ahead part rest rfl _h

/-- src/attr.rs:97-99 `Display for AttributeValue` -/
def display (raw : Bytes) : Bytes := (parts raw).flatten

/-- src/attr.rs:523-539, one element of the `Debug` output. -/
def debugElem (e : Elem) : Bytes :=
  match e.1 with
  | .cls => b! "." ++ e.2
  | .id => b! "#" ++ e.2
  | .pair key => key ++ b! "=\"" ++ e.2 ++ b! "\""
  | .comment => b! "%" ++ e.2 ++ b! "%"

/-- src/attr.rs:523-539, the loop with the flag `first`. -/
def debugLoop (first : Bool) : Attributes → Bytes
  | [] => []
  | e :: es => (if first then [] else b! " ") ++ debugElem e ++ debugLoop false es

/-- src/attr.rs:523-539 `Debug for Attributes` -/
def debug (a : Attributes) : Bytes := b! "{" ++ debugLoop true a ++ b! "}"

end Jotdown.Attr
