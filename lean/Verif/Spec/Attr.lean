import Verif.Model.Attr
import Verif.Spec.Utf8
/-! # Specifications for attributes -/
namespace Jotdown.Attr
open Jotdown

/-- `Attributes::try_from(s)` returns `Ok(a)`. -/
def Parses (s : Bytes) (a : Attributes) : Prop := tryFrom s = .ok (.ok a)

/-- `Attributes::try_from(s)` returns `Ok`. -/
def Accepts (s : Bytes) : Prop := ∃ a, Parses s a

/-- `s` has no trailing ASCII whitespace. -/
def NoTrailingWs (s : Bytes) : Prop := ∀ c, s.getLast? = some c → isWs c = false

/-- A `Validator` in state `st` is given the pieces one after the other until it reports a result;
`consumed` bytes were given before. `some 0`: invalid, `some n`: the attributes end after `n` bytes,
`none`: more input is needed. -/
def feedPieces (st : State) (consumed : Nat) : List Bytes → R (Option Nat)
  | [] => .ok none
  | l :: ls => do
    let (r, st') ← validatorParse st 0 l
    match r with
    | some 0 => pure (some 0)
    | some k => pure (some (consumed + k))
    | none => feedPieces st' (consumed + l.length) ls

end Jotdown.Attr

namespace Jotdown.Attr
open Jotdown

/-- The elements with key `k`, in order. -/
def withKey (a : Attributes) (k : Bytes) : List Bytes :=
  (a.filter (fun e => e.1.key == some k)).map (·.2)

/-- The non-empty strings of a list, separated by single spaces. -/
def joinNonEmpty (l : List Bytes) : Bytes := (b! " ").intercalate (l.filter (fun s => !s.isEmpty))

/-- The keys of all elements that have one (comments do not), in order. -/
def keysOf (a : Attributes) : List Bytes := a.filterMap (·.1.key)

/-- Remove each backslash that stands before an ASCII punctuation character, left to right. -/
def unescape : Bytes → Bytes
  | [] => []
  | [c] => [c]
  | c :: d :: r => if c = c! '\\' ∧ isPunct d then d :: unescape r else c :: unescape (d :: r)

end Jotdown.Attr

/-! ## Attribute syntax -/
namespace Jotdown.Attr
open Jotdown

/-- A non-empty name of letters, digits, `:`, `_`, `-`. -/
def Name (n : Bytes) : Prop := n ≠ [] ∧ ∀ c ∈ n, isName c = true

instance (n : Bytes) : Decidable (Name n) := inferInstanceAs (Decidable (_ ∧ _))

/-- The lines of a text, split at (and without) newlines. -/
def splitLines : Bytes → List Bytes
  | [] => [[]]
  | c :: r =>
    if c = c! '\n' then [] :: splitLines r
    else match splitLines r with
      | [] => [[c]]
      | l :: ls => (c :: l) :: ls

/-- Every double quote is preceded by a backslash, and every backslash (not itself escaped) is
followed by a character. -/
def EscOk : Bytes → Bool
  | [] => true
  | [c] => c != c! '"' && c != c! '\\'
  | c :: d :: r => if c = c! '\\' then EscOk r else c != c! '"' && EscOk (d :: r)

/-- Quoted text: escapes and quotes are right in the first line, later lines have no quotes. -/
def QuotedOk (text : Bytes) : Prop :=
  match splitLines text with
  | [] => False
  | l :: ls => EscOk l = true ∧ ∀ m ∈ ls, c! '"' ∉ m

instance (text : Bytes) : Decidable (QuotedOk text) := by
  unfold QuotedOk; split <;> infer_instance

/-- Each run of newlines replaced by a single one. -/
def collapse : Bytes → Bytes
  | [] => []
  | [c] => [c]
  | c :: d :: r => if c = c! '\n' ∧ d = c! '\n' then collapse (d :: r) else c :: collapse (d :: r)

/-- An element of djot attribute syntax. -/
inductive Item
  | cls (name : Bytes)                 -- `.name`
  | id (name : Bytes)                  -- `#name`
  | bare (key value : Bytes)           -- `key=value`
  | quoted (key text : Bytes)          -- `key="text"`
  | comment (text : Bytes)             -- `%text%`
  deriving DecidableEq, Repr

/-- How the element is written. -/
def Item.text : Item → Bytes
  | .cls n => b! "." ++ n
  | .id n => b! "#" ++ n
  | .bare k v => k ++ b! "=" ++ v
  | .quoted k t => k ++ b! "=\"" ++ t ++ b! "\""
  | .comment t => b! "%" ++ t ++ b! "%"

/-- Well-formed elements. -/
def Item.Ok : Item → Prop
  | .cls n => Name n
  | .id n => Name n
  | .bare k v => Name k ∧ Name v
  | .quoted k t => Name k ∧ QuotedOk t
  | .comment t => c! '%' ∉ t ∧ c! '}' ∉ t

/-- The element that the API should report. -/
def Item.elem : Item → Elem
  | .cls n => (.cls, n)
  | .id n => (.id, n)
  | .bare k v => (.pair k, v)
  | .quoted k t => (.pair k, joinNonEmpty (splitLines t))
  | .comment t => (.comment, collapse t)

/-- Whether another element may follow without whitespace. -/
def Item.closed : Item → Bool
  | .quoted .. | .comment .. => true
  | _ => false

/-- Elements, each followed by whitespace, which is needed between elements that are not closed. -/
def WellSeparated : List (Item × Bytes) → Prop
  | [] => True
  | (i, w) :: rest => i.Ok ∧ (∀ c ∈ w, isWs c = true) ∧ (rest = [] ∨ w ≠ [] ∨ i.closed = true) ∧
      WellSeparated rest

/-- An attribute set: `{`, whitespace, elements each followed by whitespace, `}`. -/
def writeAttrs (w : Bytes) (items : List (Item × Bytes)) : Bytes :=
  b! "{" ++ w ++ items.flatMap (fun i => i.1.text ++ i.2) ++ b! "}"

/-- The value ends with a backslash that is not itself escaped. -/
def DanglingBackslash (v : Bytes) : Prop :=
  (v.reverse.takeWhile (fun c => c == c! '\\')).length % 2 = 1

end Jotdown.Attr
