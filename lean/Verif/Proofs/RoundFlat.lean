import Verif.Proofs.RoundLex
/-! # Round trip: content as a flat list of pieces -/
namespace Jotdown.Round
open Jotdown Jotdown.Notation

/-- What can be open: an element, a link or an image. -/
inductive Op
  | mark (m : Mark) (braced : Bool) | link (image : Bool) (url : Bytes)
  deriving DecidableEq, Repr, Inhabited

def Op.starts : Op → Event
  | .mark m _ => m.starts
  | .link image url => .start (linkTo image url) []

def Op.ends : Op → Event
  | .mark m _ => m.ends
  | .link image url => .end (linkTo image url)

/-- A blank before the closing backticks: none, one to be read, one that has been read. -/
inductive Tail
  | no | pad | eaten
  deriving DecidableEq, Repr, Inhabited

def Tail.print : Tail → Bytes
  | .pad => [c! ' ']
  | _ => []

/-- The blank needed after text. -/
def tailOf (s : Bytes) : Tail := if s.getLast? = some (c! '`') then .pad else .no

theorem tailOf_print (s : Bytes) : (tailOf s).print = keepApart s.getLast? := by unfold tailOf keepApart; split <;> rfl

/-- The blank needed before text. -/
def leadOf (s : Bytes) : Bool := s.head? == some (c! '`')

def leadPrint (lead : Bool) : Bytes := if lead then [c! ' '] else []

theorem leadOf_print (s : Bytes) : leadPrint (leadOf s) = keepApart s.head? := by
  unfold leadOf keepApart leadPrint
  by_cases h : s.head? = some (c! '`') <;> simp [h]

/-- Verbatim text as written does not start with a backtick. -/
theorem apart_head {s : Bytes} (hs : s ≠ []) (r : Bytes) : ∃ c y, keepApart s.head? ++ s ++ r = c :: y ∧ c ≠ c! '`' := by
  cases s with
  | nil => exact absurd rfl hs
  | cons a s =>
    unfold keepApart
    by_cases h : a = c! '`'
    · subst h; exact ⟨c! ' ', c! '`' :: (s ++ r), by simp, by decide⟩
    · exact ⟨a, s ++ r, by simp [h], h⟩

/-- Pieces of written content: a plain byte, a backslash, the escaped byte after it, the space after it, delimiters,
verbatim text, the rest of verbatim text, the end of a line (hard if after a backslash), dots, dashes, closing quotation marks, apostrophes, symbols, references to footnotes, addresses. -/
inductive F
  | ch (b : UInt8) | bsl | lit (c : UInt8) | nbsp | opn (o : Op) | cls (o : Op)
  | code (v : Verb) (n : Nat) (s : Bytes) | rest (v : Verb) (n : Nat) (lead : Bool) (u : Bytes) (tl : Tail) | nl (hard : Bool)
  | dols (display : Bool) | dots | dash (em : Bool) | right (double : Bool) | apos | sym (s : Bytes) | note (s : Bytes) | auto (u : Bytes)
  deriving DecidableEq, Repr, Inhabited

def Op.opens : Op → Bytes
  | .mark m true => [c! '{', m.ch]
  | .mark m false => [m.ch]
  | .link true _ => [c! '!', c! '[']
  | .link false _ => [c! '[']

def Op.closes : Op → Bytes
  | .mark m true => [m.ch, c! '}']
  | .mark m false => [m.ch]
  | .link _ url => [c! ']', c! '('] ++ url ++ [c! ')']

def F.print : F → Bytes
  | .ch b => [b]
  | .bsl => [c! '\\']
  | .lit c => [c]
  | .nbsp => [c! ' ']
  | .opn o => o.opens
  | .cls o => o.closes
  | .code v n s => ticks n ++ (keepApart s.head? ++ s ++ keepApart s.getLast?) ++ ticks n ++ v.behind
  | .rest v n lead u tl => leadPrint lead ++ u ++ tl.print ++ ticks n ++ v.behind
  | .nl _ => [c! '\n']
  | .dols d => dollars d
  | .dots => [c! '.', c! '.', c! '.']
  | .dash true => [c! '-', c! '-', c! '-']
  | .dash false => [c! '-', c! '-']
  | .right true => [c! '"', c! '}']
  | .right false => [c! '\'', c! '}']
  | .apos => [c! '\'']
  | .sym s => c! ':' :: (s ++ [c! ':'])
  | .note s => c! '[' :: c! '^' :: (s ++ [c! ']'])
  | .auto u => c! '<' :: (u ++ [c! '>'])

def F.raw : F → List Event
  | .ch b => [.str [b]]
  | .bsl => [.escape]
  | .lit c => [.str [c]]
  | .nbsp => [.nonBreakingSpace]
  | .opn o => [o.starts]
  | .cls o => [o.ends]
  | .code v _ s => [.start v.container [], .str s, .end v.container]
  | .rest v _ _ u _ => [.str u, .end v.container]
  | .nl hard => [if hard then .hardbreak else .softbreak]
  | .dols _ => []
  | .dots => [.ellipsis]
  | .dash em => [if em then .emDash else .enDash]
  | .right double => [if double then .rightDoubleQuote else .rightSingleQuote]
  | .apos => [.rightSingleQuote]
  | .sym s => [.symbol s]
  | .note s => [.footnoteReference s]
  | .auto u => [.start (autoTo u) [], .str u, .end (autoTo u)]

def fprint (T : List F) : Bytes := T.flatMap F.print
def fraw (T : List F) : List Event := T.flatMap F.raw

@[simp] theorem fprint_nil : fprint [] = [] := rfl
@[simp] theorem fprint_cons (f : F) (T : List F) : fprint (f :: T) = f.print ++ fprint T := rfl
@[simp] theorem fprint_append (A B : List F) : fprint (A ++ B) = fprint A ++ fprint B := by simp [fprint]
@[simp] theorem fraw_nil : fraw [] = [] := rfl
@[simp] theorem fraw_cons (f : F) (T : List F) : fraw (f :: T) = f.raw ++ fraw T := rfl
@[simp] theorem fraw_append (A B : List F) : fraw (A ++ B) = fraw A ++ fraw B := by simp [fraw]

/-- What precedes: the start of a line, an opening delimiter, the opening bracket of a link, verbatim text, a backslash,
dollar signs before verbatim text, something in verbatim text, whitespace, a space that does not break, dots, dashes, text, something else. -/
inductive Ctx
  | bol | opened | lopened | code | dol | bsl | inCode (n : Nat) | space | nb | dots | dash | word | other
  deriving DecidableEq, Repr, Inhabited

def Ctx.free : Ctx → Bool
  | .bsl | .dol | .inCode _ => false
  | _ => true

/-- Something has been opened just before. -/
def Ctx.isOpened : Ctx → Bool
  | .opened | .lopened => true
  | _ => false

/-- The byte before is no whitespace, and nothing has been opened just before. -/
def Ctx.tight : Ctx → Bool
  | .code | .dots | .dash | .word | .other => true
  | _ => false

def chCtx (b : UInt8) : Ctx := if isWs b then .space else .word

theorem chCtx_free (b : UInt8) : (chCtx b).free = true := by unfold chCtx; split <;> rfl
theorem chCtx_opened (b : UInt8) : (chCtx b).isOpened = false := by unfold chCtx; split <;> rfl

/-- The context after an opening delimiter. -/
def Op.ctx : Op → Ctx
  | .link false _ => .lopened
  | _ => .opened

/-- The context after verbatim text. -/
def Verb.ctx : Verb → Ctx
  | .raw _ => .other
  | _ => .code

def Verb.isMath : Verb → Bool
  | .math _ => true
  | _ => false

/-- Verbatim text that can follow in a context. -/
def CodeAt (x : Ctx) (v : Verb) : Prop := if v.isMath then x = .dol else x.free = true ∧ x ≠ .code

theorem CodeAt.of_free {x : Ctx} {v : Verb} (h : CodeAt x v) (hx : x.free = true) : x ≠ .code ∧ v.isMath = false := by
  unfold CodeAt at h
  split at h
  · subst h; cases hx
  · rename_i hv; exact ⟨h.2, by simpa using hv⟩

/-- The next piece is mathematics. -/
def MathNext (d : Bool) (T : List F) : Prop := ∃ n s T', T = .code (.math d) n s :: T'

/-- What is left of verbatim text, before the closing backticks. -/
def TailOk (lead : Bool) (u : Bytes) : Tail → Prop
  | .no => ∀ a w, u = a ++ c! '`' :: w → ∃ c ∈ w, isWs c = false
  | .pad => u ≠ [] → u.getLast? = some (c! '`')
  | .eaten => u = [] ∧ lead = false

/-- The rest of verbatim text. -/
def RestOk (n : Nat) (lead : Bool) (u : Bytes) (tl : Tail) : Prop :=
  0 < n ∧ (lead = true → u.head? = some (c! '`')) ∧ TailOk lead u tl
  ∧ (∀ a w, u = a ++ ticks n ++ w → a.getLast? ≠ some (c! '`') → w.head? ≠ some (c! '`') → False)

/-- An opening delimiter that can follow in a context, with the open elements `S`, before the pieces `T`. -/
def OpnOk (x : Ctx) (S : List Op) (T : List F) : Op → Prop
  | .mark m true => (m = .highlight → x ≠ .code) ∧ (m = .single → x = .bol ∨ x = .space) ∧ (m.quote = true → ∃ c, (fprint T).head? = some c ∧ isWs c = false)
  | .mark m false => m.bare = true ∧ Op.mark m false ∉ S ∧ (m = .superscript → x ≠ .lopened) ∧ (∃ c, (fprint T).head? = some c ∧ isWs c = false)
      ∧ (m = .single → x = .bol ∨ x = .space) ∧ (m.quote = true → Op.mark m true ∉ S)
  | .link _ url => ∀ c ∈ url, isUrl c = true

/-- A closing delimiter that can follow in a context. -/
def ClsOk (x : Ctx) : Op → Prop
  | .mark m true => x.isOpened = false ∧ (m.quote = true → x.tight = true)
  | .mark m false => m.bare = true ∧ x.tight = true
  | .link _ url => ∀ c ∈ url, isUrl c = true

/-- Pieces that can follow in a context, with the open elements `S`. -/
def okF : Ctx → List Op → List F → Prop
  | x, S, [] => x.free = true ∧ S = []
  | x, S, .ch b :: T => x.free = true ∧ isPlain b = true ∧ (x = .nb → isWs b = false) ∧ okF (chCtx b) S T
  | x, S, .bsl :: T => x.free = true ∧ x ≠ .code ∧ okF .bsl S T
  | x, S, .lit c :: T => x = .bsl ∧ isPunct c = true ∧ okF .other S T
  | x, S, .nbsp :: T => x = .bsl ∧ okF .nb S T
  | x, S, .opn o :: T => x.free = true ∧ OpnOk x S T o ∧ okF o.ctx (o :: S) T
  | x, S, .cls o :: T => x.free = true ∧ ClsOk x o ∧ ∃ S', S = o :: S' ∧ okF .other S' T
  | x, S, .code v n s :: T => CodeAt x v ∧ (CodeOk n s ∧ v.Ok) ∧ okF v.ctx S T
  | x, S, .dols d :: T => x.free = true ∧ (x = .space ∨ x = .word) ∧ MathNext d T ∧ okF .dol S T
  | x, S, .rest v n lead u tl :: T => x = .inCode n ∧ (RestOk n lead u tl ∧ v.Ok) ∧ okF v.ctx S T
  | x, S, .nl true :: T => x = .bsl ∧ okF .bol S T
  | x, S, .nl false :: T => x.free = true ∧ x ≠ .nb ∧ okF .bol S T
  | x, S, .dots :: T => x.free = true ∧ x ≠ .dots ∧ okF .dots S T
  | x, S, .dash _ :: T => x.free = true ∧ x ≠ .dash ∧ okF .dash S T
  | x, S, .right d :: T => x.free = true ∧ (∀ b, Op.mark (quoteOf d) b ∉ S) ∧ okF .other S T
  | x, S, .apos :: T => x = .word ∧ (∀ b, Op.mark .single b ∉ S) ∧ okF .other S T
  | x, S, .note s :: T => x.free = true ∧ (NoteLabel s ∧ s.head? ≠ some (c! '}')) ∧ okF .other S T
  | x, S, .sym s :: T => x.free = true ∧ (s ≠ [] ∧ SymbolName s) ∧ okF .other S T
  | x, S, .auto u :: T => x.free = true ∧ Address u ∧ okF .other S T

mutual
def Inl.flat : Inl → List F
  | .text s => s.map .ch
  | .esc c => [.bsl, .lit c]
  | .soft => [.nl false]
  | .hard => [.bsl, .nl true]
  | .nbsp => [.bsl, .nbsp]
  | .dots => [.dots]
  | .dash em => [.dash em]
  | .right d => [.right d]
  | .apos => [.apos]
  | .symbol s => [.sym s]
  | .note s => [.note s]
  | .auto u => [.auto u]
  | .code (.math d) n s => [.dols d, .code (.math d) n s]
  | .code v n s => [.code v n s]
  | .elem m braced body => .opn (.mark m braced) :: (flats body ++ [.cls (.mark m braced)])
  | .link image body url => .opn (.link image url) :: (flats body ++ [.cls (.link image url)])
def flats : List Inl → List F
  | [] => []
  | i :: is => i.flat ++ flats is
end

/-! ## Joining text -/

theorem joined_congr (A : List Event) {B C : List Event} (h : joined B = joined C) : joined (A ++ B) = joined (A ++ C) := by
  induction A with
  | nil => exact h
  | cons e A ih =>
    cases e with
    | str a => simp only [List.cons_append, joined, ih]
    | _ => simp only [List.cons_append, joined, ih]

theorem joined_split (a b : Bytes) (C : List Event) : joined (.str (a ++ b) :: C) = joined (.str a :: .str b :: C) := by
  by_cases ha : a = []
  · subst ha; simp [joined]
  · by_cases hb : b = []
    · subst hb; simp [joined]
    · simp only [joined, ha, hb, List.append_eq_nil_iff, false_and, if_false]
      split <;> simp_all

theorem joined_empty (C : List Event) : joined (.str [] :: C) = joined C := by simp [joined]

/-- An event other than text. -/
def notStr : Event → Bool
  | .str _ => false
  | _ => true

theorem joined_cons {e : Event} (h : notStr e = true) (C : List Event) : joined (e :: C) = e :: joined C := by
  cases e <;> first | rfl | simp [notStr] at h

/-- Text before something else. -/
theorem joined_str {a : Bytes} (ha : a ≠ []) {e : Event} (h : notStr e = true) (C : List Event) :
    joined (.str a :: e :: C) = .str a :: joined (e :: C) := by
  rw [joined_cons h]
  have h2 := joined_cons h C
  cases e with
  | str b => simp [notStr] at h
  | _ => simp only [joined, ha, if_false]

theorem joined_last {a : Bytes} (ha : a ≠ []) : joined [.str a] = [.str a] := by simp [joined, ha]

/-! ## Flattening -/

theorem joined_chs (A : List Event) (s : Bytes) (C : List Event) : joined (A ++ (fraw (s.map .ch) ++ C)) = joined (A ++ .str s :: C) := by
  refine joined_congr A ?_
  induction s with
  | nil => simp [joined]
  | cons b s ih =>
    have : (b :: s : Bytes) = [b] ++ s := rfl
    rw [this, joined_split]
    exact joined_congr [.str [b]] ih

mutual
theorem Inl.flat_print (i : Inl) : fprint i.flat = i.print := by
  cases i with
  | text s => simp only [Inl.flat, Inl.print, fprint]; induction s <;> simp_all [F.print]
  | code v n s => cases v <;> simp [Inl.flat, Inl.print, F.print, Verb.before]
  | right d => cases d <;> rfl
  | note s => simp [Inl.flat, Inl.print, F.print]
  | symbol s => simp [Inl.flat, Inl.print, F.print]
  | auto s => simp [Inl.flat, Inl.print, F.print]
  | dash em => cases em <;> rfl
  | elem m braced body => cases braced <;> simp [Inl.flat, Inl.print, F.print, Op.opens, Op.closes, flats_print body]
  | link image body url => cases image <;> simp [Inl.flat, Inl.print, F.print, Op.opens, Op.closes, flats_print body]
  | _ => rfl
theorem flats_print (is : List Inl) : fprint (flats is) = prints is := by
  cases is with
  | nil => rfl
  | cons i is => simp [flats, prints, Inl.flat_print i, flats_print is]
end

mutual
theorem Inl.flat_raw (i : Inl) (A C : List Event) : joined (A ++ (fraw i.flat ++ C)) = joined (A ++ (i.events ++ C)) := by
  cases i with
  | text s => simp only [Inl.flat, Inl.events]; rw [joined_chs]; rfl
  | code v n s => cases v <;> simp [Inl.flat, Inl.events, F.raw]
  | auto s => simp [Inl.flat, Inl.events, F.raw]
  | elem m braced body =>
    simp only [Inl.flat, Inl.events, fraw_cons, F.raw, Op.starts, Op.ends, fraw_append, fraw_nil, List.append_nil, List.cons_append, List.nil_append, List.append_assoc]
    have := flats_raw body (A ++ [m.starts]) (m.ends :: C)
    simpa using this
  | link image body url =>
    simp only [Inl.flat, Inl.events, fraw_cons, F.raw, Op.starts, Op.ends, fraw_append, fraw_nil, List.append_nil, List.cons_append, List.nil_append, List.append_assoc]
    have := flats_raw body (A ++ [.start (linkTo image url) []]) (.end (linkTo image url) :: C)
    simpa using this
  | _ => rfl
theorem flats_raw (is : List Inl) (A C : List Event) : joined (A ++ (fraw (flats is) ++ C)) = joined (A ++ (inlEvents is ++ C)) := by
  cases is with
  | nil => rfl
  | cons i is =>
    simp only [flats, inlEvents, fraw_append, List.append_assoc]
    rw [Inl.flat_raw i A]
    have := flats_raw is (A ++ i.events) C
    simpa using this
end

/-- The context after content. -/
def Inl.after : Inl → Ctx
  | .text s => match s.getLast? with
    | some b => chCtx b
    | none => .word
  | .soft | .hard => .bol
  | .nbsp => .nb
  | .dots => .dots
  | .dash _ => .dash
  | .code v .. => v.ctx
  | _ => .other

/-- Content can follow in a context. -/
def Inl.fits (x : Ctx) : Inl → Bool
  | .code (.math _) .. => x == .space || x == .word
  | .code .. | .esc _ | .hard | .nbsp | .elem .highlight true _ => x != .code
  | .elem .superscript false _ => x != .lopened
  | .elem .single _ _ => x == .bol || x == .space
  | .apos => x == .word
  | .soft => x != .nb
  | .text s => x != .nb || !(s.head?.any isWs)
  | .dots => x != .dots
  | .dash _ => x != .dash
  | _ => true

theorem Inl.after_ok (i : Inl) : i.after.free = true ∧ i.after.isOpened = false := by
  cases i with
  | text s =>
    simp only [Inl.after]
    split
    · exact ⟨chCtx_free _, chCtx_opened _⟩
    · exact ⟨rfl, rfl⟩
  | code v n s => cases v <;> exact ⟨rfl, rfl⟩
  | _ => exact ⟨rfl, rfl⟩

theorem after_text {s : Bytes} {x : Ctx} (h1 : x ≠ .space) (h2 : x ≠ .word) : (Inl.text s).after ≠ x := by
  simp only [Inl.after]
  split
  · unfold chCtx; split
    · exact fun h => h1 h.symm
    · exact fun h => h2 h.symm
  · exact fun h => h2 h.symm

theorem follow_fits {i j : Inl} {is : List Inl} (h : follow (i :: j :: is) = true) : j.fits i.after = true ∧ follow (j :: is) = true := by
  simp only [follow, Bool.and_eq_true] at h
  refine ⟨?_, h.2⟩
  have h1 := h.1
  cases i with
  | text s =>
    have hc : ((Inl.text s).after != .code) = true := by simpa using after_text (s := s) (x := .code) (by simp) (by simp)
    have hl : ((Inl.text s).after != .lopened) = true := by simpa using after_text (s := s) (x := .lopened) (by simp) (by simp)
    have hn : ((Inl.text s).after != .nb) = true := by simpa using after_text (s := s) (x := .nb) (by simp) (by simp)
    have hd : ((Inl.text s).after != .dots) = true := by simpa using after_text (s := s) (x := .dots) (by simp) (by simp)
    have hh : ((Inl.text s).after != .dash) = true := by simpa using after_text (s := s) (x := .dash) (by simp) (by simp)
    have hs : mayFollow (.text s) (.elem .single false []) = true → ((Inl.text s).after == .bol || (Inl.text s).after == .space) = true := by
      intro h1
      simp only [mayFollow] at h1
      cases hl : s.getLast? with
      | none => rw [hl] at h1; cases h1
      | some b =>
        rw [hl] at h1
        have hb : isWs b = true := h1
        have : (Inl.text s).after = .space := by simp [Inl.after, hl, chCtx, hb]
        rw [this]; rfl
    cases j with
    | elem m b body => cases m <;> cases b <;> first | exact hc | exact hl | exact hs h1 | rfl
    | text s => simp only [Inl.fits, hn, Bool.true_or]
    | apos =>
      simp only [mayFollow] at h1
      cases hl : s.getLast? with
      | none => rw [hl] at h1; cases h1
      | some b =>
        rw [hl] at h1
        have hb : isWs b = false := by simpa using h1
        simp [Inl.fits, Inl.after, hl, chCtx, hb]
    | code v n t =>
      cases v with
      | math d =>
        simp only [Inl.fits, Inl.after]
        split
        · unfold chCtx; split <;> rfl
        · rfl
      | _ => exact hc
    | _ => first | exact hc | exact hn | exact hd | exact hh | rfl
  | code v n s =>
    cases v <;> cases j with
    | code v n t => cases v <;> first | rfl | (simp [mayFollow] at h1; done)
    | elem m b body => cases m <;> cases b <;> first | rfl | (simp [mayFollow] at h1; done)
    | text s => first | rfl | (simp only [mayFollow] at h1; exact h1)
    | _ => first | rfl | (simp [mayFollow] at h1; done)
  | _ =>
    cases j with
    | code v n t => cases v <;> first | rfl | (simp [mayFollow] at h1; done)
    | elem m b body => cases m <;> cases b <;> first | rfl | (simp [mayFollow] at h1; done)
    | text s => first | rfl | (simp only [mayFollow] at h1; exact h1)
    | _ => first | rfl | (simp [mayFollow] at h1; done)

theorem after_tight {i : Inl} {B : List Mark} (h : i.Ok B) {A : Bytes} {c : UInt8} (hc : (A ++ i.print).getLast? = some c) (hw : isWs c = false) : i.after.tight = true := by
  cases i with
  | text s =>
    obtain ⟨h1, _⟩ := h
    rw [Inl.print, List.getLast?_append] at hc
    simp only [Inl.after]
    cases hl : s.getLast? with
    | none => rw [List.getLast?_eq_none_iff] at hl; exact absurd hl h1
    | some b =>
      rw [hl] at hc
      simp only [Option.some_or, Option.some.injEq] at hc
      subst hc
      simp [chCtx, hw, Ctx.tight]
  | soft => simp [Inl.print] at hc; subst hc; cases hw
  | hard => simp [Inl.print] at hc; subst hc; cases hw
  | nbsp => simp [Inl.print] at hc; subst hc; cases hw
  | code v n s => cases v <;> rfl
  | _ => rfl

theorem prints_append (a b : List Inl) : prints (a ++ b) = prints a ++ prints b := by
  induction a with
  | nil => rfl
  | cons i a ih => simp [prints, ih]

theorem InlsOk.mem {B : List Mark} {is : List Inl} (h : InlsOk B is) : ∀ i ∈ is, i.Ok B := by
  induction is with
  | nil => simp
  | cons j is ih =>
    simp only [InlsOk] at h
    intro i hi
    rcases List.mem_cons.mp hi with rfl | hi
    · exact h.1
    · exact ih h.2 i hi

theorem prints_tight {B : List Mark} {is : List Inl} (h : InlsOk B is) {i : Inl} (hi : is.getLast? = some i) {c : UInt8} (hc : (prints is).getLast? = some c) (hw : isWs c = false) :
    i.after.tight = true := by
  obtain ⟨a, rfl⟩ : ∃ a, is = a ++ [i] := by
    rw [List.getLast?_eq_some_iff] at hi; exact hi
  rw [prints_append] at hc
  simp only [prints, List.append_nil] at hc
  exact after_tight (h.mem i (by simp)) hc hw

mutual
theorem Inl.flat_ok (i : Inl) (B : List Mark) (h : i.Ok B) (x : Ctx) (hx : x.free = true) (hf : i.fits x = true) (S : List Op) (hB : ∀ m b, Op.mark m b ∈ S → (b = false ∨ m.quote = true) → m ∈ B)
    (T : List F) (hT : okF i.after S T) : okF x S (i.flat ++ T) := by
  cases i with
  | text s =>
    simp only [Inl.Ok] at h
    obtain ⟨h1, h2⟩ := h
    simp only [Inl.flat]
    cases s with
    | nil => exact absurd rfl h1
    | cons b s =>
      have hb : x = .nb → isWs b = false := by rintro rfl; simpa [Inl.fits] using hf
      clear h1 hf
      induction s generalizing x b with
      | nil => exact ⟨hx, h2 b (by simp), hb, hT⟩
      | cons c s ih =>
        refine ⟨hx, h2 b (by simp), hb, ih (chCtx b) (chCtx_free b) c ?_ (fun d hd => h2 d (List.mem_cons_of_mem _ hd)) ?_⟩
        · simpa only [Inl.after, List.getLast?_cons_cons] using hT
        · intro h; unfold chCtx at h; split at h <;> cases h
  | esc c => exact ⟨hx, by simpa [Inl.fits] using hf, rfl, h, hT⟩
  | soft => exact ⟨hx, by simpa [Inl.fits] using hf, hT⟩
  | hard => exact ⟨hx, by simpa [Inl.fits] using hf, rfl, hT⟩
  | nbsp => exact ⟨hx, by simpa [Inl.fits] using hf, rfl, hT⟩
  | dots => exact ⟨hx, by simpa [Inl.fits] using hf, hT⟩
  | dash em => exact ⟨hx, by simpa [Inl.fits] using hf, hT⟩
  | right d =>
    refine ⟨hx, fun b hb => h (hB _ b hb (.inr ?_)), hT⟩
    cases d <;> rfl
  | apos => exact ⟨by simpa [Inl.fits] using hf, fun b hb => h (hB _ b hb (.inr rfl)), hT⟩
  | symbol s => exact ⟨hx, h, hT⟩
  | note s => exact ⟨hx, h, hT⟩
  | auto u => exact ⟨hx, h, hT⟩
  | code v n s =>
    cases v with
    | math d => exact ⟨hx, by simpa [Inl.fits] using hf, ⟨n, s, T, rfl⟩, rfl, h, hT⟩
    | plain => exact ⟨⟨hx, by simpa [Inl.fits] using hf⟩, h, hT⟩
    | raw f => exact ⟨⟨hx, by simpa [Inl.fits] using hf⟩, h, hT⟩
  | elem m braced body =>
    cases braced with
    | true =>
      simp only [Inl.Ok] at h
      obtain ⟨h1, ht, h2, hn, h3⟩ := h
      refine ⟨hx, ⟨?_, ?_, ?_⟩, ?_⟩
      · rintro rfl; simpa [Inl.fits] using hf
      · rintro rfl; simpa [Inl.fits] using hf
      · intro hq
        obtain ⟨⟨c, hc1, hc2⟩, _⟩ := ht hq
        refine ⟨c, ?_, hc2⟩
        show (fprint ((flats body ++ [F.cls (.mark m true)]) ++ T)).head? = some c
        rw [fprint_append, fprint_append, flats_print, List.append_assoc, List.head?_append, hc1]
        rfl
      · show okF .opened (.mark m true :: S) ((flats body ++ [F.cls (.mark m true)]) ++ T)
        rw [List.append_assoc]
        refine flats_ok body _ h3 h2 .opened rfl ?_ (.mark m true :: S) ?_ _ ?_
        · cases body with
          | nil => trivial
          | cons j js =>
            cases j with
            | elem m b _ => cases m <;> cases b <;> first | rfl | cases hn
            | apos => cases hn
            | code v n s => cases v <;> first | rfl | cases hn
            | _ => rfl
        · intro m' b' hm' hb'
          simp only [List.mem_cons, Op.mark.injEq] at hm'
          rcases hm' with ⟨rfl, rfl⟩ | hm'
          · rcases hb' with hb' | hb'
            · cases hb'
            · rw [if_pos hb']; exact List.mem_cons_self
          · have := hB m' b' hm' hb'
            split
            · exact List.mem_cons_of_mem _ this
            · exact this
        · intro y hy hy2
          refine ⟨hy, ?_, S, rfl, hT⟩
          cases hl : body.getLast? with
          | none => rw [List.getLast?_eq_none_iff] at hl; exact absurd hl h1
          | some i =>
            rw [hy2 i hl]
            refine ⟨i.after_ok.2, fun hq => ?_⟩
            obtain ⟨_, d, hd1, hd2⟩ := ht hq
            exact prints_tight h3 hl hd1 hd2
    | false =>
      simp only [Inl.Ok] at h
      obtain ⟨h1, h2, ⟨⟨c, hc1, hc2⟩, ⟨d, hd1, hd2⟩⟩, h4, hn, h5⟩ := h
      refine ⟨hx, ⟨h1, fun h => h2 (hB m _ h (.inl rfl)), ?_, ⟨c, ?_, hc2⟩, ?_, fun hq h => h2 (hB m _ h (.inr hq))⟩, ?_⟩
      · rintro rfl; simpa [Inl.fits] using hf
      · show (fprint ((flats body ++ [F.cls (.mark m false)]) ++ T)).head? = some c
        rw [fprint_append, fprint_append, flats_print, List.append_assoc, List.head?_append, hc1]
        rfl
      · rintro rfl; simpa [Inl.fits] using hf
      · show okF .opened (.mark m false :: S) ((flats body ++ [F.cls (.mark m false)]) ++ T)
        rw [List.append_assoc]
        refine flats_ok body (m :: B) h5 h4 .opened rfl ?_ (.mark m false :: S) ?_ _ ?_
        · cases body with
          | nil => trivial
          | cons j js =>
            cases j with
            | elem m b _ => cases m <;> cases b <;> first | rfl | cases hn
            | apos => cases hn
            | code v n s => cases v <;> first | rfl | cases hn
            | _ => rfl
        · intro m' b' hm' hb'
          simp only [List.mem_cons, Op.mark.injEq] at hm'
          rcases hm' with ⟨rfl, _⟩ | hm'
          · exact List.mem_cons_self
          · exact List.mem_cons_of_mem _ (hB m' b' hm' hb')
        · intro y hy hy2
          refine ⟨hy, ?_, S, rfl, hT⟩
          cases hl : body.getLast? with
          | none => rw [List.getLast?_eq_none_iff] at hl; subst hl; simp [prints] at hc1
          | some i => rw [hy2 i hl]; exact ⟨h1, prints_tight h5 hl hd1 hd2⟩
  | link image body url =>
    simp only [Inl.Ok] at h
    obtain ⟨h1, hn, h2, h3, h4⟩ := h
    refine ⟨hx, h3, ?_⟩
    show okF (Op.link image url).ctx (.link image url :: S) ((flats body ++ [F.cls (.link image url)]) ++ T)
    rw [List.append_assoc]
    refine flats_ok body B h4 h1 _ (by cases image <;> rfl) ?_ (.link image url :: S) ?_ _ ?_
    · cases body with
      | nil => trivial
      | cons j js =>
        cases j with
        | elem m b _ =>
          cases m <;> cases b <;> cases image <;> first | rfl | (simp [noSingle] at hn; done) | (exact absurd (h2 rfl) (by simp [noCaret]))
        | apos => cases hn
        | code v n s => cases v <;> cases image <;> first | rfl | cases hn
        | _ => cases image <;> rfl
    · intro m' b' hm' hb'; simp at hm'; exact hB m' b' hm' hb'
    · intro y hy _
      exact ⟨hy, h3, S, rfl, hT⟩
theorem flats_ok (is : List Inl) (B : List Mark) (h : InlsOk B is) (hf : follow is = true) (x : Ctx) (hx : x.free = true)
    (hh : match is with | [] => True | j :: _ => j.fits x = true) (S : List Op) (hB : ∀ m b, Op.mark m b ∈ S → (b = false ∨ m.quote = true) → m ∈ B) (T : List F)
    (hT : ∀ y : Ctx, y.free = true → (∀ i, is.getLast? = some i → y = i.after) → okF y S T) : okF x S (flats is ++ T) := by
  cases is with
  | nil => exact hT x hx (by simp)
  | cons i is =>
    simp only [InlsOk] at h
    simp only [flats, List.append_assoc]
    refine Inl.flat_ok i B h.1 x hx hh S hB _ ?_
    cases is with
    | nil => exact hT _ i.after_ok.1 (fun j hj => by simp at hj; rw [hj])
    | cons j js =>
      obtain ⟨h1, h2⟩ := follow_fits hf
      exact flats_ok (j :: js) B h.2 h2 i.after i.after_ok.1 h1 S hB T (fun y hy hy2 => hT y hy (fun k hk => hy2 k (by rwa [List.getLast?_cons_cons] at hk)))
end

end Jotdown.Round
