import Verif.Model.Basic
/-! # Model of src/lex.rs -/
namespace Jotdown.Lex
open Jotdown

/-- src/lex.rs:26-39 -/
inductive Delimiter
  | brace | braceAsterisk | braceCaret | braceEqual | braceHyphen | bracePlus | braceTilde
  | braceUnderscore | bracket | braceQuote1 | braceQuote2 | paren
  deriving DecidableEq, Repr, Inhabited

/-- src/lex.rs:42-53 -/
inductive Symbol
  | asterisk | caret | exclaimBracket | lt | pipe | quote1 | quote2 | tilde | underscore | colon
  deriving DecidableEq, Repr, Inhabited

/-- src/lex.rs:56-60 -/
inductive Sequence
  | backtick | hyphen | period
  deriving DecidableEq, Repr, Inhabited

/-- src/lex.rs:13-23 -/
inductive Kind
  | text | newline | nbsp | hardbreak | escape
  | opn (d : Delimiter) | cls (d : Delimiter) | sym (s : Symbol) | seq (s : Sequence)
  deriving DecidableEq, Repr, Inhabited

/-- src/lex.rs:7-10 -/
structure Token where
  kind : Kind
  len : Nat
  deriving DecidableEq, Repr, Inhabited

/-- src/lex.rs:63-69 -/
def Sequence.ch : Sequence → UInt8
  | .backtick => c! '`'
  | .period => c! '.'
  | .hyphen => c! '-'

/-- src/lex.rs:291-318 -/
def isSpecial (c : UInt8) : Bool :=
  c == c! '\\' || c == c! '[' || c == c! ']' || c == c! '(' || c == c! ')' || c == c! '{'
  || c == c! '}' || c == c! '*' || c == c! '^' || c == c! '=' || c == c! '+' || c == c! '~'
  || c == c! '_' || c == c! '\'' || c == c! '"' || c == c! '-' || c == c! '!' || c == c! '<'
  || c == c! '|' || c == c! ':' || c == c! '`' || c == c! '.' || c == c! '\n'

/-- Number of leading bytes satisfying `p` (src/lex.rs:146-154 `eat_while`). -/
def countWhile (p : UInt8 → Bool) (s : Bytes) : Nat := (s.takeWhile p).length

/-- src/lex.rs:273-280 `maybe_eat_close_brace`, after one byte has been eaten:
`r` is the input after that byte; returns kind and total token length. -/
def maybeCloseBrace (r : Bytes) (kind : Kind) (d : Delimiter) : Kind × Nat :=
  if r.head? = some (c! '}') then (.cls d, 2) else (kind, 1)

/-- src/lex.rs:233-237: number of further hyphens eaten, `while peek == '-' && peek_n(1) != '}'`. -/
def hyphens : Bytes → Nat
  | 45 :: r => if r.head? = some (c! '}') then 0 else 1 + hyphens r
  | _ => 0

/-- src/lex.rs:200-211: delimiter opened by `{` followed by `c`, if any. -/
def explicitOpen (c : UInt8) : Option Delimiter :=
  if c = c! '*' then some .braceAsterisk
  else if c = c! '^' then some .braceCaret
  else if c = c! '=' then some .braceEqual
  else if c = c! '-' then some .braceHyphen
  else if c = c! '+' then some .bracePlus
  else if c = c! '~' then some .braceTilde
  else if c = c! '_' then some .braceUnderscore
  else if c = c! '\'' then some .braceQuote1
  else if c = c! '"' then some .braceQuote2
  else none

/-- src/lex.rs:199-218: token starting with `{`. -/
def braceTok (r : Bytes) : Kind × Nat :=
  match r.head?.bind explicitOpen with
  | some d => (.opn d, 2)
  | none => (.opn .brace, 1)

/-- src/lex.rs:183-193: token starting with a backslash. -/
def backslashTok (verbatim : Bool) (r : Bytes) : (Kind × Nat) × Bool :=
  match r with
  | [] => ((.text, 1), false)
  | d :: _ => if isWs d || isPunct d then ((.escape, 1), !verbatim) else ((.text, 1), false)

/-- src/lex.rs:180-258: token starting with the special byte `c`, `r` is the input after it.
Returns kind, length and the new escape flag. -/
def specialTok (verbatim : Bool) (c : UInt8) (r : Bytes) : (Kind × Nat) × Bool :=
  if c = c! '\n' then ((.newline, 1), false)
  else if c = c! '\\' then
    backslashTok verbatim r
  else if c = c! '[' then ((.opn .bracket, 1), false)
  else if c = c! ']' then ((.cls .bracket, 1), false)
  else if c = c! '(' then ((.opn .paren, 1), false)
  else if c = c! ')' then ((.cls .paren, 1), false)
  else if c = c! '{' then
    (braceTok r, false)
  else if c = c! '}' then ((.cls .brace, 1), false)
  else if c = c! '*' then (maybeCloseBrace r (.sym .asterisk) .braceAsterisk, false)
  else if c = c! '^' then (maybeCloseBrace r (.sym .caret) .braceCaret, false)
  else if c = c! '=' then (maybeCloseBrace r .text .braceEqual, false)
  else if c = c! '+' then (maybeCloseBrace r .text .bracePlus, false)
  else if c = c! '~' then (maybeCloseBrace r (.sym .tilde) .braceTilde, false)
  else if c = c! '_' then (maybeCloseBrace r (.sym .underscore) .braceUnderscore, false)
  else if c = c! '\'' then (maybeCloseBrace r (.sym .quote1) .braceQuote1, false)
  else if c = c! '"' then (maybeCloseBrace r (.sym .quote2) .braceQuote2, false)
  else if c = c! '-' then
    if r.head? = some (c! '}') then ((.cls .braceHyphen, 2), false)
    else ((.seq .hyphen, 1 + hyphens r), false)
  else if c = c! '!' then
    if r.head? = some (c! '[') then ((.sym .exclaimBracket, 2), false) else ((.text, 1), false)
  else if c = c! '<' then ((.sym .lt, 1), false)
  else if c = c! '|' then ((.sym .pipe, 1), false)
  else if c = c! ':' then ((.sym .colon, 1), false)
  else if c = c! '`' then ((.seq .backtick, 1 + countWhile (· == c! '`') r), false)
  else if c = c! '.' then ((.seq .period, 1 + countWhile (· == c! '.') r), false)
  else ((.text, 1), false)

/-- src/lex.rs:159-174: token after an escaping backslash. -/
def escapedTok (c : UInt8) (r : Bytes) : Kind × Nat :=
  if c = c! '\n' then (.hardbreak, 1)
  else if (c = c! '\t' ∨ c = c! ' ')
      ∧ (r.dropWhile (fun c => c == c! ' ' || c == c! '\t')).head? = some (c! '\n') then
    (.hardbreak, 1 + countWhile (fun c => c == c! ' ' || c == c! '\t') r + 1)
  else if c = c! ' ' then (.nbsp, 1)
  else (.text, 1)

/-- src/lex.rs:156-266 `token`, as a function of the unread input `src[pos..]`: kind and length of
the token (none at the end of input) and the new value of the escape flag. -/
def tokenAt (escape verbatim : Bool) (rest : Bytes) : Option Token × Bool :=
  if escape then
    match rest with
    | [] => (none, false)
    | c :: r => (some ⟨(escapedTok c r).1, (escapedTok c r).2⟩, false)
  else if 0 < countWhile (fun c => !isSpecial c) rest then
    (some ⟨.text, countWhile (fun c => !isSpecial c) rest⟩, false)
  else match rest with
    | [] => (none, false)
    | c :: r => (some ⟨(specialTok verbatim c r).1.1, (specialTok verbatim c r).1.2⟩,
        (specialTok verbatim c r).2)

/-- src/lex.rs:73-83 -/
structure Lexer where
  src : Bytes
  pos : Nat := 0
  escape : Bool := false
  next : Option Token := none
  verbatim : Bool := false
  deriving DecidableEq, Repr, Inhabited

/-- src/lex.rs:86-94 -/
def Lexer.new (src : Bytes) : Lexer := { src := src }

/-- Unread input `src[pos..]`. (src/lex.rs:105-107, 132-134) -/
def Lexer.rest (l : Lexer) : Bytes := l.src.drop l.pos

/-- src/lex.rs:156-266 -/
def Lexer.token (l : Lexer) : Option Token × Lexer :=
  match tokenAt l.escape l.verbatim l.rest with
  | (none, e) => (none, { l with escape := e })
  | (some t, e) => (some t, { l with pos := l.pos + t.len, escape := e })

theorem countWhile_le (p : UInt8 → Bool) (s : Bytes) : countWhile p s ≤ s.length := by
  induction s with
  | nil => simp [countWhile]
  | cons a s ih =>
    unfold countWhile at *
    simp only [List.takeWhile_cons]
    split <;> simp <;> omega

theorem hyphens_le (s : Bytes) : hyphens s ≤ s.length := by
  induction s with
  | nil => simp [hyphens]
  | cons a s ih =>
    unfold hyphens
    split
    · rename_i r heq
      injection heq with h1 h2; subst h2
      split <;> simp <;> omega
    · omega

theorem maybeCloseBrace_len (r : Bytes) (k : Kind) (d : Delimiter) :
    0 < (maybeCloseBrace r k d).2 ∧ (maybeCloseBrace r k d).2 ≤ r.length + 1 := by
  unfold maybeCloseBrace
  split
  · cases r <;> simp_all
  · simp

theorem braceTok_len (r : Bytes) : 0 < (braceTok r).2 ∧ (braceTok r).2 ≤ r.length + 1 := by
  unfold braceTok
  cases r with
  | nil => simp
  | cons a r => simp only [List.head?_cons, Option.bind_some]; split <;> simp

theorem backslashTok_len (v : Bool) (r : Bytes) : (backslashTok v r).1.2 = 1 := by
  unfold backslashTok
  split
  · rfl
  · split <;> rfl

/-- Case distinction on `if` for a predicate on its value. -/
theorem ite_intro {α : Type} {P : α → Prop} {c : Prop} [Decidable c] {a b : α}
    (h1 : c → P a) (h2 : ¬c → P b) : P (if c then a else b) := by
  split
  · exact h1 ‹_›
  · exact h2 ‹_›

/-- Length of a token made of a byte and bytes of the `n` bytes after it (auxiliary; src/lex.rs:156-266). -/
def LenOk (n : Nat) (k : (Kind × Nat) × Bool) : Prop := 0 < k.1.2 ∧ k.1.2 ≤ n + 1

theorem specialTok_len (v : Bool) (c : UInt8) (r : Bytes) : LenOk r.length (specialTok v c r) := by
  have h1 := hyphens_le r
  have h2 := countWhile_le (· == (96 : UInt8)) r
  have h3 := countWhile_le (· == (46 : UInt8)) r
  have h4 : ∀ x : UInt8, r.head? = some x → 1 ≤ r.length := by
    intro x hx; cases r <;> simp_all
  have h5 := braceTok_len r
  have h6 := maybeCloseBrace_len r
  have h7 := backslashTok_len v r
  unfold specialTok
  repeat' (refine ite_intro (fun h => ?_) (fun h => ?_))
  all_goals
    unfold LenOk
    first
    | exact h6 _ _
    | exact h5
    | (rw [h7]; omega)
    | (constructor <;> dsimp only <;> omega)
    | (have := h4 _ h; constructor <;> dsimp only <;> omega)

theorem escapedTok_len (c : UInt8) (r : Bytes) :
    0 < (escapedTok c r).2 ∧ (escapedTok c r).2 ≤ r.length + 1 := by
  have key : ∀ s : Bytes, ∀ p : UInt8 → Bool, (s.dropWhile p).head? = some 10 →
      countWhile p s + 1 ≤ s.length := by
    intro s p hs
    induction s with
    | nil => simp at hs
    | cons a s ih =>
      unfold countWhile at *
      simp only [List.takeWhile_cons, List.dropWhile_cons] at *
      split at hs <;> simp_all
  unfold escapedTok
  by_cases h1 : c = 10
  · simp [h1]
  · rw [if_neg h1]
    split
    · rename_i hh
      have := key _ _ hh.2
      constructor <;> dsimp only <;> omega
    · split <;> simp

theorem tokenAt_len (e v : Bool) (rest : Bytes) (t : Token) (e' : Bool)
    (h : tokenAt e v rest = (some t, e')) : 0 < t.len ∧ t.len ≤ rest.length := by
  unfold tokenAt at h
  split at h
  · split at h
    · simp at h
    · simp only [Prod.mk.injEq, Option.some.injEq] at h
      obtain ⟨rfl, -⟩ := h
      exact escapedTok_len _ _
  · split at h
    · rename_i hn
      have := countWhile_le (fun c => !isSpecial c) rest
      simp only [Prod.mk.injEq, Option.some.injEq] at h; obtain ⟨rfl, -⟩ := h
      exact ⟨hn, this⟩
    · split at h
      · simp at h
      · simp only [Prod.mk.injEq, Option.some.injEq] at h
        obtain ⟨rfl, -⟩ := h
        exact specialTok_len _ _ _

theorem Lexer.token_pos {l l' : Lexer} {t : Token} (h : l.token = (some t, l')) :
    l'.src = l.src ∧ l'.pos = l.pos + t.len ∧ 0 < t.len ∧ l'.pos ≤ l.src.length := by
  unfold Lexer.token at h
  split at h
  · simp at h
  · rename_i t0 e heq
    have := tokenAt_len _ _ _ _ _ heq
    simp only [Prod.mk.injEq, Option.some.injEq] at h
    obtain ⟨rfl, rfl⟩ := h
    simp only [Lexer.rest, List.length_drop] at this
    simp only [true_and]
    omega

/-- src/lex.rs:113-126, the `while` loop of `next_token`: concatenate following text tokens, the
first other token (or end) is stored in `next`. -/
def Lexer.concatText (l : Lexer) (len : Nat) : Nat × Lexer :=
  match _h : l.token with
  | (some ⟨.text, n⟩, l') => l'.concatText (len + n)
  | (t, l') => (len, { l' with next := t })
termination_by l.src.length - l.pos
decreasing_by
  have := Lexer.token_pos _h
  rw [this.1]
  simp only at this ⊢
  omega

/-- src/lex.rs:113-126 -/
def Lexer.nextToken (l : Lexer) : Option Token × Lexer :=
  match l.token with
  | (some ⟨.text, n⟩, l') =>
    let (len, l'') := l'.concatText n
    (some ⟨.text, len⟩, l'')
  | (t, l') => (t, l')

/-- src/lex.rs:286-288 `Iterator::next` -/
def Lexer.nextTok (l : Lexer) : Option Token × Lexer :=
  match l.next with
  | some t => (some t, { l with next := none })
  | none => l.nextToken

/-- src/lex.rs:98-103 -/
def Lexer.peek (l : Lexer) : Option Token × Lexer :=
  match l.next with
  | some t => (some t, l)
  | none =>
    let (t, l') := l.token
    (t, { l' with next := t })

/-- Length of the stored token, 0 if none (src/lex.rs:106). -/
def Lexer.nextLen (l : Lexer) : Nat := match l.next with | some t => t.len | none => 0

/-- src/lex.rs:105-107. `pos - len` underflow and slice panics are modelled. -/
def Lexer.ahead (l : Lexer) : R Bytes := do
  let p ← csub l.pos l.nextLen
  byteSlice l.src p l.src.length

/-- src/lex.rs:109-111 -/
def Lexer.skipAhead (l : Lexer) (n : Nat) : R Lexer := do
  let s ← byteSlice l.src (l.pos + n) l.src.length
  pure (Lexer.new s)

/-- All tokens of a line (what iterating the lexer yields). (src/lex.rs:283-289) -/
def Lexer.tokens (fuel : Nat) (l : Lexer) : List Token :=
  match fuel with
  | 0 => []
  | fuel + 1 => match l.nextTok with
    | (none, _) => []
    | (some t, l') => t :: Lexer.tokens fuel l'

end Jotdown.Lex
