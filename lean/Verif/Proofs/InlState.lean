import Verif.Proofs.InlScan
import Verif.Proofs.InlQueue
/-! # Invariant of the inline parser -/
namespace Jotdown.Inline
open Jotdown
open Jotdown.Block
open Jotdown.Notation

/-- The source, the end of the lines, the position of the last emitted event, a bound for the number of events to
come, whether the last line was fed, whether another line that is not empty may follow, and position and number of lines ahead before a step. -/
structure Cx where
  src : Bytes
  H : Nat
  lo : Nat
  K : Nat
  cpl : Bool
  more : Bool
  q : Nat
  al : Nat

structure Cx.Ok (c : Cx) : Prop where
  safe : Safe c.src
  bd : Bd c.src
  le : c.H ≤ c.src.length

/-! ## Input -/

structure InpOk (c : Cx) (i : Input) : Prop where
  src : i.src = c.src
  cpl : i.complete = c.cpl
  le : i.span.start ≤ i.span.stop
  stop : i.span.stop ≤ i.spanLine.stop
  bs : Bd (c.src.drop i.span.start)
  be : Bd (c.src.drop i.span.stop)
  bl : Bd (c.src.drop i.spanLine.stop)
  rem : Lex.Rem i.lexer (sliceOf c.src ⟨i.span.stop, i.spanLine.stop⟩)
  chain : Chain c.src i.spanLine.stop i.ahead c.H
  nl : (i.spanLine :: i.ahead).Pairwise (NlPair c.src) ∧ (∀ l ∈ i.spanLine :: i.ahead, c.more = true ∨ l.stop < c.H → NlStop c.src l.stop)
  ls : i.spanLine.start ≤ i.span.stop ∨ Adjacent c.src

/-- What the events of the parser are read from. -/
def nts (c : Cx) (p : IP) : Notes := ⟨c.src, p.storeCowstrs, p.storeAttributes, p.input.spanLine :: p.input.ahead⟩

variable {c : Cx}

theorem InpOk.len {i : Input} (h : InpOk c i) (hc : c.Ok) : i.spanLine.stop ≤ c.src.length := by
  have := h.chain.le; have := hc.le; omega

theorem InpOk.spanOk {i : Input} (h : InpOk c i) (hc : c.Ok) : SpanOk c.src i.span :=
  ⟨h.le, by have := h.stop; have := h.len hc; omega, h.bs, h.be⟩

theorem InpOk.lex {i : Input} (h : InpOk c i) {l : Lex.Lexer} (hl : Lex.Rem l (sliceOf c.src ⟨i.span.stop, i.spanLine.stop⟩)) :
    InpOk c { i with lexer := l } :=
  ⟨h.src, h.cpl, h.le, h.stop, h.bs, h.be, h.bl, hl, h.chain, h.nl, h.ls⟩

theorem InpOk.reset {i : Input} (h : InpOk c i) : InpOk c i.resetSpan :=
  ⟨h.src, h.cpl, Nat.le_refl _, h.stop, h.be, h.be, h.bl, h.rem, h.chain, h.nl, h.ls⟩

theorem setCurrentLine_ok {src : Bytes} {i : Input} (hs : i.src = src) {l : Span} (hl : SpanOk src l) :
    i.setCurrentLine l = .ok { i with lexer := Lex.Lexer.new (sliceOf src l), span := ⟨l.start, l.start⟩, spanLine := l } := by
  unfold Input.setCurrentLine byteSlice
  rw [hs, if_pos ⟨hl.le, hl.len⟩]
  rfl

theorem InpOk.pop {i : Input} (h : InpOk c i) (hc : c.Ok) {l : Span} {rest : List Span} (ha : i.ahead = l :: rest) :
    InpOk c { i with ahead := rest, lexer := Lex.Lexer.new (sliceOf c.src l), span := ⟨l.start, l.start⟩, spanLine := l } := by
  have hch := h.chain
  have hnl := h.nl
  rw [ha] at hch hnl
  cases hch with
  | cons h1 h2 h3 =>
    exact ⟨h.src, h.cpl, Nat.le_refl _, h2.le, h2.bs, h2.bs, h2.be, .new (bd_slice h2.bs) (safe_slice hc.safe), h3, ⟨(List.pairwise_cons.1 hnl.1).2,
      fun l hl hm => hnl.2 l (List.mem_cons_of_mem _ hl) hm⟩, .inl (Nat.le_refl _)⟩

structure Ate (c : Cx) (i : Input) (t : Lex.Token) (i' : Input) : Prop where
  inp : InpOk c i'
  pos : 0 < t.len
  span : i'.span = ⟨i.span.start, i.span.stop + t.len⟩
  line : i'.spanLine = i.spanLine
  ahead : i'.ahead = i.ahead
  text : Lex.TokText (sliceOf c.src ⟨i.span.stop, i.spanLine.stop⟩) t
  next : t.kind ≠ .text → i'.lexer.next = none
  esc : t.kind = .seq .backtick → i'.lexer.escape = false ∧ (sliceOf c.src ⟨i'.span.stop, i'.spanLine.stop⟩).head? ≠ some (c! '`')
  vm : Lex.VMode i.lexer (sliceOf c.src ⟨i.span.stop, i.spanLine.stop⟩) → Lex.VTok (sliceOf c.src ⟨i.span.stop, i.spanLine.stop⟩) t ∧
    Lex.VMode i'.lexer (sliceOf c.src ⟨i'.span.stop, i'.spanLine.stop⟩)

theorem InpOk.eat_some {i : Input} (h : InpOk c i) (hc : c.Ok) {t : Lex.Token} (ht : i.eat.1 = some t) : Ate c i t i.eat.2 := by
  have h1 : i.lexer.nextTok.1 = some t := by
    unfold Input.eat at ht
    cases hx : i.lexer.nextTok with
    | mk o l => cases o with
      | none => rw [hx] at ht; simp at ht
      | some t' => rw [hx] at ht; simpa using ht
  have h2 := h.rem.nextTok_some h1
  have h3 : i.eat.2 = { i with lexer := i.lexer.nextTok.2, span := ⟨i.span.start, i.span.stop + t.len⟩ } := by
    unfold Input.eat
    cases hx : i.lexer.nextTok with
    | mk o l => rw [hx] at h1; simp only at h1; subst h1; rfl
  have h4 := h2.le
  rw [slice_length (h.len hc)] at h4
  have h5 := h2.rem
  rw [slice_drop] at h5
  have h6 := h2.rem.isBd
  have hst := h.stop
  have hle := h.le
  rw [h3]
  refine ⟨⟨h.src, h.cpl, by simp only; omega, by simp only; omega, h.bs, bd_of_slice h6 (by omega) h.bl, h.bl, h5, h.chain, h.nl, h.ls.imp_left (fun h => by simp only; omega)⟩, h2.pos, rfl, rfl, rfl, h2.text, h2.next, fun hk => by have := h2.esc hk; rw [slice_drop] at this; exact this, fun hv => ?_⟩
  have h7 := Lex.nextTok_v hv h.rem h1
  rw [slice_drop] at h7
  exact h7

theorem InpOk.eat_none {i : Input} (h : InpOk c i) (hc : c.Ok) (ht : i.eat.1 = none) :
    i.span.stop = i.spanLine.stop ∧ Lex.Rem i.eat.2.lexer [] ∧ i.eat.2 = { i with lexer := i.eat.2.lexer } := by
  have h1 : i.lexer.nextTok.1 = none := by
    unfold Input.eat at ht
    cases hx : i.lexer.nextTok with
    | mk o l => cases o with
      | none => rfl
      | some t' => rw [hx] at ht; simp at ht
  have h3 : i.eat.2 = { i with lexer := i.lexer.nextTok.2 } := by
    unfold Input.eat
    cases hx : i.lexer.nextTok with
    | mk o l => rw [hx] at h1; simp only at h1; subst h1; rfl
  have h2 := h.rem.nextTok_none h1
  have h4 := congrArg List.length h2.1
  rw [slice_length (h.len hc)] at h4
  simp at h4
  have := h.stop
  rw [h3]
  exact ⟨by omega, h2.2, rfl⟩

/-- Peeking only changes the lexer. -/
theorem InpOk.peek {i : Input} (h : InpOk c i) : ∃ l, i.peek.2 = { i with lexer := l } ∧
    Lex.Peeked (sliceOf c.src ⟨i.span.stop, i.spanLine.stop⟩) i.peek.1 l :=
  ⟨i.lexer.peek.2, rfl, h.rem.peek⟩

theorem eat_of_peeked {i : Input} {t : Lex.Token} (h : i.lexer.nextTok.1 = some t) : i.eat.1 = some t := by
  unfold Input.eat
  cases hx : i.lexer.nextTok with
  | mk o l => rw [hx] at h; simp only at h; subst h; rfl

/-! ## Events -/

/-- Indices into the stores are valid. -/
def StoreOk (ns : Nat) : Container → Prop
  | .referenceLink i | .referenceImage i | .inlineLink i | .inlineImage i => i < ns
  | _ => True

def KindOk (ns na : Nat) : EventKind → Prop
  | .enter x | .exit x => StoreOk ns x
  | .attributes _ i => i < na
  | .atom (.symbol s) => ∀ b ∈ s, isSymbolChar b = true
  | _ => True

/-- How atoms are written. -/
def AtomText : Atom → Bytes → Prop
  | .footnoteReference l, t => t = b! "[^" ++ l ++ b! "]" ∧ Notation.NoteLabel l
  | .symbol s, t => t = b! ":" ++ s ++ b! ":" ∧ Notation.SymbolName s
  | .softbreak, t => t = b! "\n"
  | .hardbreak, t => ∃ b, (∀ x ∈ b, x = c! ' ' ∨ x = c! '\t') ∧ t = b ++ b! "\n"
  | .escape, t => t = b! "\\"
  | .nbsp, t => t = b! " "
  | .ellipsis, t => t = b! "..."
  | .enDash, t => t = b! "--"
  | .emDash, t => t = b! "---"
  | .quote .single true, t => t = b! "'" ∨ t = b! "{'"
  | .quote .single false, t => t = b! "'" ∨ t = b! "'}" ∨ t = b! "{'"
  | .quote .double true, t => t = b! "\"" ∨ t = b! "{\""
  | .quote .double false, t => t = b! "\"" ∨ t = b! "\"}"

def KindText (k : EventKind) (t : Bytes) : Prop :=
  match k with
  | .atom a => AtomText a t
  | _ => True

structure EvOk (src : Bytes) (ns na : Nat) (e : Event) : Prop where
  span : SpanOk src e.span
  kind : KindOk ns na e.kind
  text : KindText e.kind (sliceOf src e.span)

theorem StoreOk.mono {ns ns' : Nat} {x : Container} (h : StoreOk ns x) (h1 : ns ≤ ns') : StoreOk ns' x := by
  cases x <;> simp only [StoreOk] at * <;> omega

theorem KindOk.mono {ns na ns' na' : Nat} {k : EventKind} (h : KindOk ns na k) (h1 : ns ≤ ns') (h2 : na ≤ na') : KindOk ns' na' k := by
  cases k with
  | enter x => exact StoreOk.mono h h1
  | exit x => exact StoreOk.mono h h1
  | attributes b i => simp only [KindOk] at *; omega
  | atom a => cases a <;> first | exact h | trivial
  | _ => trivial

theorem EvOk.mono {src : Bytes} {ns na ns' na' : Nat} {e : Event} (h : EvOk src ns na e) (h1 : ns ≤ ns') (h2 : na ≤ na') :
    EvOk src ns' na' e := ⟨h.span, h.kind.mono h1 h2, h.text⟩

/-- The events are within the source. -/
def EvsOk (src : Bytes) (p : IP) : Prop :=
  ∀ e ∈ p.events, EvOk src p.storeCowstrs.length p.storeAttributes.length e

/-- Stored attributes are not empty and their keys are names. -/
def GoodAttrs (a : Attr.Attributes) : Prop := a ≠ [] ∧ Attr.KeysOk a

/-! ## Queue -/

/-- What is written before the backticks. -/
def verbPre : Container → Option Bytes
  | .verbatim => some []
  | .inlineMath => some (b! "$")
  | .displayMath => some (b! "$$")
  | _ => none

theorem verbPre_isVerbatim {ty : Container} {pre : Bytes} (h : verbPre ty = some pre) : ty.isVerbatim = true := by
  cases ty <;> simp [verbPre, Container.isVerbatim] at *

structure VerbQ (N : Notes) (v : VerbatimState) (os : List (Opener × Nat)) (lo : Nat) (es : List Event) (hi : Nat) : Prop where
  ex : ∃ A ph op S ty m, es = A ++ ph :: op :: S ∧ v.eventOpener = A.length + 1 ∧ Lay N os lo A m ∧ Ph ph ∧
    Fits m ph ∧ op.kind = .enter ty ∧ (0 < v.lenOpener ∧ ∃ pre, verbPre ty = some pre ∧ sliceOf N.src op.span = pre ++ ticks v.lenOpener) ∧
    Fits ph.span.stop op ∧ (∀ e ∈ S, e.kind = .str) ∧
    Bal N op.span.stop S hi ∧ ∀ k n, v.nonWsLast = some (k, n) → A.length + 1 < n ∧ n ≤ es.length

def QueueOk (N : Notes) (verbatim : Option VerbatimState) (os : List (Opener × Nat)) (lo : Nat) (es : List Event) (hi : Nat) : Prop :=
  match verbatim with
  | none => Lay N os lo es hi
  | some v => VerbQ N v os lo es hi

theorem VerbQ.hi {N : Notes} {v : VerbatimState} {os : List (Opener × Nat)} {lo hi hi' : Nat} {es : List Event} (h : VerbQ N v os lo es hi) (h1 : hi ≤ hi') :
    VerbQ N v os lo es hi' := by
  obtain ⟨A, ph, op, S, ty, m, a1, a2, a3, a4, a5, a6, a7, a8, a9, a10, a11⟩ := h.ex
  exact ⟨A, ph, op, S, ty, m, a1, a2, a3, a4, a5, a6, a7, a8, a9, a10.hi h1, a11⟩

theorem QueueOk.hi {N : Notes} {v : Option VerbatimState} {os : List (Opener × Nat)} {lo hi hi' : Nat} {es : List Event} (h : QueueOk N v os lo es hi) (h1 : hi ≤ hi') :
    QueueOk N v os lo es hi' := by
  cases v with
  | none => exact Lay.hi h h1
  | some v => exact VerbQ.hi h h1

/-- The position of a bracket still follows the line breaks when the notes change. -/
def Lines (N M : Notes) (hi : Nat) : Prop :=
  ∀ y : Span, y.start ≤ y.stop → y.stop ≤ hi → (sliceOf N.src y = b! "(" ∨ sliceOf N.src y = b! "[") → LineOk N y → LineOk M y

theorem Lines.same {N M : Notes} {hi : Nat} (hs : M.src = N.src) (h : ∀ l ∈ M.lines, l ∈ N.lines) : Lines N M hi := by
  intro y _ _ _ hy l hl
  rw [hs]
  exact hy l (h l hl)

theorem Lines.le {N M : Notes} {hi hi' : Nat} (h : Lines N M hi) (h1 : hi' ≤ hi) : Lines N M hi' :=
  fun y a b => h y a (by omega)

theorem VerbQ.notes {N M : Notes} (hm : N.Le M) {v : VerbatimState} {os : List (Opener × Nat)} {lo hi : Nat} {es : List Event} (h : VerbQ N v os lo es hi)
    (hl : Lines N M hi) : VerbQ M v os lo es hi := by
  obtain ⟨A, ph, op, S, ty, m, a1, a2, a3, a4, a5, a6, a7, a8, a9, a10, a11⟩ := h.ex
  refine ⟨A, ph, op, S, ty, m, a1, a2, a3.notes hm (hl.le ?_), a4, a5, a6, by rw [hm.src]; exact a7, a8, a9, a10.mono hm, a11⟩
  have := a5.le; have := a8.le; have := a10.le
  omega

theorem QueueOk.notes {N M : Notes} (hm : N.Le M) {v : Option VerbatimState} {os : List (Opener × Nat)} {lo hi : Nat} {es : List Event} (h : QueueOk N v os lo es hi)
    (hl : Lines N M hi) : QueueOk M v os lo es hi := by
  cases v with
  | none => exact Lay.notes hm h hl
  | some v => exact VerbQ.notes hm h hl

/-- An empty text at the end of the queue follows periods, and a placeholder is not the last event. -/
def LastOk (src : Bytes) (es : List Event) : Prop :=
  ∀ e, es.getLast? = some e → e.kind ≠ .placeholder ∧ (e.kind = .str → e.span.start < e.span.stop ∨ (0 < e.span.start ∧ src[e.span.start - 1]? = some (c! '.')))

theorem LastOk.append {src : Bytes} {es : List Event} {e : Event}
    (h : e.kind = .str → e.span.start < e.span.stop ∨ (0 < e.span.start ∧ src[e.span.start - 1]? = some (c! '.'))) (hp : e.kind ≠ .placeholder := by simp) : LastOk src (es ++ [e]) := by
  intro e' h1
  simp at h1
  subst h1
  exact ⟨hp, h⟩

/-- Bound for the number of events still to be emitted, if the input from `n` is still to be read. -/
def pot (c : Cx) (p : IP) (n : Nat) : Nat :=
  weight p.events + 3 * (c.src.length - n) + (if p.verbatim.isSome then 1 else 0)

/-! ## States -/

/-- A run of exactly `n` backticks from `i`, as seen between `a` and `b`. -/
def TickRun (src : Bytes) (n a b i : Nat) : Prop :=
  a ≤ i ∧ i + n ≤ b ∧ (∀ k, i ≤ k → k < i + n → src[k]? = some (c! '`')) ∧ (i = a ∨ src[i - 1]? ≠ some (c! '`')) ∧ (i + n = b ∨ src[i + n]? ≠ some (c! '`'))

def SameLine (src : Bytes) (a b : Nat) : Prop := ∀ j, a ≤ j → j < b → src[j]? ≠ some (c! '\n')

/-- There is no such run in the first line. -/
def Clear (src : Bytes) (n a b : Nat) : Prop := ∀ i, TickRun src n a b i → ¬ SameLine src a i

/-- The state in verbatim text, as long as it is in the line where it starts. -/
def VLive (c : Cx) (p : IP) : Prop :=
  ∀ v op, p.verbatim = some v → p.events[v.eventOpener]? = some op →
    Clear c.src v.lenOpener op.span.stop p.input.span.stop ∧
    (SameLine c.src op.span.stop p.input.span.stop → sliceOf c.src ⟨p.input.span.stop, p.input.spanLine.stop⟩ ≠ [] →
      ((sliceOf c.src ⟨p.input.span.stop, p.input.spanLine.stop⟩).head? = some (c! '`') → c.src[p.input.span.stop - 1]? ≠ some (c! '`')) ∧
      Lex.VMode p.input.lexer (sliceOf c.src ⟨p.input.span.stop, p.input.spanLine.stop⟩))

/-- The state in verbatim text after the token `t`. -/
def VMid (c : Cx) (p : IP) (t : Lex.Token) : Prop :=
  ∀ v op, p.verbatim = some v → p.events[v.eventOpener]? = some op →
    Clear c.src v.lenOpener op.span.stop p.input.span.start ∧
    (SameLine c.src op.span.stop p.input.span.start →
      (t.kind = .seq .backtick → c.src[p.input.span.start - 1]? ≠ some (c! '`')) ∧
      (t.kind = .seq .backtick → (sliceOf c.src ⟨p.input.span.stop, p.input.spanLine.stop⟩).head? ≠ some (c! '`')) ∧
      (t.kind ≠ .seq .backtick → c! '`' ∉ sliceOf c.src p.input.span) ∧
      Lex.VMode p.input.lexer (sliceOf c.src ⟨p.input.span.stop, p.input.spanLine.stop⟩))

theorem VLive.none {p : IP} (h : p.verbatim = none) : VLive c p := by intro v op hv; rw [h] at hv; cases hv
theorem VMid.none {p : IP} {t : Lex.Token} (h : p.verbatim = none) : VMid c p t := by intro v op hv; rw [h] at hv; cases hv

/-- Between two tokens. -/
structure Live (c : Cx) (p : IP) : Prop where
  inp : InpOk c p.input
  attr : p.attributes = none
  queue : QueueOk (nts c p) p.verbatim p.openers c.lo p.events p.input.span.stop
  evs : EvsOk c.src p
  store : ∀ a ∈ p.storeAttributes, GoodAttrs a
  last : LastOk c.src p.events
  pot : pot c p p.input.span.stop ≤ c.K
  vb : VLive c p

/-- After a step. -/
structure Adv (c : Cx) (p : IP) : Prop where
  live : Live c p
  q : c.q < p.input.span.stop
  al : p.input.ahead.length ≤ c.al

/-- A token was read. -/
structure Mid (c : Cx) (p : IP) (t : Lex.Token) : Prop where
  inp : InpOk c p.input
  attr : p.attributes = none
  queue : QueueOk (nts c p) p.verbatim p.openers c.lo p.events p.input.span.start
  evs : EvsOk c.src p
  store : ∀ a ∈ p.storeAttributes, GoodAttrs a
  last : LastOk c.src p.events
  pot : pot c p p.input.span.start ≤ c.K
  ne : p.input.span.start < p.input.span.stop
  q : c.q < p.input.span.stop
  al : p.input.ahead.length ≤ c.al
  text : t.kind ≠ .opn .bracket → Lex.TextOf (sliceOf c.src p.input.span) t.kind ∧ p.input.span.len = t.len
  bracket : t.kind = .opn .bracket → Bracket (sliceOf c.src p.input.span)
  line : p.input.spanLine.start ≤ p.input.span.start ∨ Adjacent c.src
  brace : t.kind = .opn .brace → ((sliceOf c.src ⟨p.input.span.start, p.input.spanLine.stop⟩).drop 1).head?.bind Lex.explicitOpen = none
  vb : VMid c p t
  esc : t.kind = .seq .backtick → p.input.lexer.escape = false ∧ (sliceOf c.src ⟨p.input.span.stop, p.input.spanLine.stop⟩).head? ≠ some (c! '`') ∧ p.input.lexer.next = none

theorem adjacent_of {src : Bytes} {n : Nat} (h1 : src[n]? = some (c! '}')) (h2 : src[n + 1]? = some (c! '{')) : Adjacent src := by
  have l2 : n + 1 < src.length := (List.getElem?_eq_some_iff.1 h2).1
  rw [List.getElem?_eq_getElem (by omega)] at h1 h2
  simp at h1 h2
  refine ⟨src.take n, src.drop (n + 2), ?_⟩
  have : src.drop n = c! '}' :: c! '{' :: src.drop (n + 2) := by
    rw [List.drop_eq_getElem_cons (by omega), h1, List.drop_eq_getElem_cons l2, h2]
  have h3 := List.take_append_drop n src
  rw [this] at h3
  simpa using h3

/-- The element to which attributes at `n` are attached. -/
def Shape (N : Notes) (os : List (Opener × Nat)) (lo : Nat) (es : List Event) (n : Nat) : ElemTy → Prop
  | .container e => ContQ N os e lo es n
  | .word => Lay N os lo es n

theorem Shape.lay {N : Notes} {os : List (Opener × Nat)} {lo : Nat} {es : List Event} {n : Nat} {ty : ElemTy} (h : Shape N os lo es n ty) : Lay N os lo es n := by
  cases ty with
  | container e => exact ContQ.lay h
  | word => exact h

theorem Shape.notes {N M : Notes} (hm : N.Le M) {os : List (Opener × Nat)} {lo : Nat} {es : List Event} {n : Nat} {ty : ElemTy} (h : Shape N os lo es n ty)
    (hl : Lines N M n) : Shape M os lo es n ty := by
  cases ty with
  | container e => exact ContQ.notes hm h hl
  | word => exact Lay.notes hm h hl

theorem nts_le {p p' : IP} (h1 : p'.storeCowstrs = p.storeCowstrs) (h2 : p'.storeAttributes = p.storeAttributes) : (nts c p).Le (nts c p') := by
  refine ⟨rfl, ?_, ?_⟩
  · simp only [nts]; rw [h1]; exact fun _ _ h => h
  · simp only [nts]; rw [h2]; exact fun _ _ h => h

theorem Shape.move {p p' : IP} {os : List (Opener × Nat)} {lo : Nat} {es : List Event} {n : Nat} {ty : ElemTy} (h : Shape (nts c p) os lo es n ty)
    (h1 : p'.storeCowstrs = p.storeCowstrs) (h2 : p'.storeAttributes = p.storeAttributes)
    (h3 : ∀ l ∈ p'.input.spanLine :: p'.input.ahead, l ∈ p.input.spanLine :: p.input.ahead) : Shape (nts c p') os lo es n ty :=
  h.notes (nts_le h1 h2) (.same rfl h3)

theorem QueueOk.move {p p' : IP} {v : Option VerbatimState} {os : List (Opener × Nat)} {lo : Nat} {es : List Event} {n : Nat} (h : QueueOk (nts c p) v os lo es n)
    (h1 : p'.storeCowstrs = p.storeCowstrs) (h2 : p'.storeAttributes = p.storeAttributes)
    (h3 : ∀ l ∈ p'.input.spanLine :: p'.input.ahead, l ∈ p.input.spanLine :: p.input.ahead) : QueueOk (nts c p') v os lo es n :=
  h.notes (nts_le h1 h2) (.same rfl h3)

theorem Bal.move {p p' : IP} {lo : Nat} {es : List Event} {n : Nat} (h : Bal (nts c p) lo es n)
    (h1 : p'.storeCowstrs = p.storeCowstrs) (h2 : p'.storeAttributes = p.storeAttributes) : Bal (nts c p') lo es n :=
  h.mono (nts_le h1 h2)

theorem mem_lines {i i' : Input} (h1 : i'.spanLine = i.spanLine) (h2 : i'.ahead = i.ahead) : ∀ l ∈ i'.spanLine :: i'.ahead, l ∈ i.spanLine :: i.ahead := by
  rw [h1, h2]; exact fun _ h => h

theorem Lay.move {p p' : IP} {os : List (Opener × Nat)} {lo : Nat} {es : List Event} {n : Nat} (h : Lay (nts c p) os lo es n)
    (h1 : p'.storeCowstrs = p.storeCowstrs) (h2 : p'.storeAttributes = p.storeAttributes)
    (h3 : ∀ l ∈ p'.input.spanLine :: p'.input.ahead, l ∈ p.input.spanLine :: p.input.ahead) : Lay (nts c p') os lo es n :=
  h.notes (nts_le h1 h2) (Lines.same rfl h3)

/-- End of the line with index `n`. -/
def stopAt (L : List Span) (n : Nat) : Nat := (L[n]?.map (·.stop)).getD 0

/-- The lines from the current position. -/
def Input.lines (i : Input) (s : Nat) : List Span := ⟨s, i.spanLine.stop⟩ :: i.ahead

/-- Attributes may start at `s`; the line with index `n` is the last one examined. -/
structure Wait (c : Cx) (p : IP) (st : AttributesState) (n : Nat) : Prop where
  inp : InpOk c p.input
  attr : p.attributes = some st
  verb : p.verbatim = none
  shape : Shape (nts c p) p.openers c.lo p.events p.input.span.stop st.elemTy
  evs : EvsOk c.src p
  store : ∀ a ∈ p.storeAttributes, GoodAttrs a
  last : LastOk c.src p.events
  pot : pot c p p.input.span.stop ≤ c.K
  tok : p.input.lexer.nextTok.1 = some ⟨.opn .brace, 1⟩
  found : Found c.src (p.input.lines p.input.span.stop) p.input.span.stop st.endAttr st.validLines
  valid : st.validLines ≤ n
  opn : st.endAttr ≠ p.input.span.stop → c.src[st.endAttr]? = some (c! '{')
  run : ∃ s0, Attr.srun .start (textTo c.src (p.input.lines p.input.span.stop) n (stopAt (p.input.lines p.input.span.stop) n)) = some s0 ∧
    Attr.norm s0 = st.validator

/-- Waiting for another line to complete attributes. -/
structure Pending (c : Cx) (p : IP) : Prop where
  wait : ∃ st, Wait c p st p.input.ahead.length
  cpl : c.cpl = false

/-- The state and result of a parser of a token. -/
def Res (c : Cx) (N : IP → Prop) (r : IP × Option Flow) : Prop :=
  match r.2 with
  | none => N r.1
  | some .cont => Adv c r.1
  | some .more => Pending c r.1
  | _ => False

end Jotdown.Inline
