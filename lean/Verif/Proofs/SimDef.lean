import Verif.Proofs.LexEq
import Verif.Model.Inline
/-! # Inline parsers that read the same text

`p` has given out the events `D` that `q` still has in its queue; the lines that follow are related by a mode. -/
namespace Jotdown.Inline
open Jotdown

def Opener.shift (n : Nat) : Opener → Opener
  | .link e i l => .link (e + n) i l
  | o => o

def VerbatimState.shift (n : Nat) (v : VerbatimState) : VerbatimState :=
  { v with eventOpener := v.eventOpener + n, nonWsLast := v.nonWsLast.map (fun x => (x.1, x.2 + n)) }

def ElemTy.shift (n : Nat) : ElemTy → ElemTy
  | .container e => .container (e + n)
  | .word => .word

def AttributesState.shift (n : Nat) (s : AttributesState) : AttributesState := { s with elemTy := s.elemTy.shift n }

/-- How the lines of two parsers are related: the same lines; or the first knows that they are all, and the second does not;
or the second has an empty line after them. -/
inductive Mode
  | same | pre | post
  deriving DecidableEq

/-- The end of the last line. -/
def Input.lastStop (i : Input) : Nat := (i.ahead.getLast?.map (·.stop)).getD i.spanLine.stop

def LinesRel (E : Nat) (m : Mode) (i j : Input) : Prop :=
  match m with
  | .same => j.complete = i.complete ∧ j.ahead = i.ahead ∧ j.spanLine = i.spanLine
  | .pre => i.complete = true ∧ j.complete = false ∧ j.ahead = i.ahead ∧ j.spanLine = i.spanLine ∧ i.lastStop = E
  | .post => i.complete = true ∧ j.complete = true ∧ i.lastStop = E ∧
      ((j.ahead = i.ahead ++ [⟨E, E⟩] ∧ j.spanLine = i.spanLine) ∨ (j.ahead = [] ∧ i.ahead = [] ∧ j.spanLine.stop = E))

/-- The line of both parsers ends at the same place. -/
theorem LinesRel.stop {E : Nat} {m : Mode} {i j : Input} (h : LinesRel E m i j) : j.spanLine.stop = i.spanLine.stop := by
  cases m with
  | same => rw [h.2.2]
  | pre => rw [h.2.2.2.1]
  | post =>
    obtain ⟨-, -, h1, h2 | ⟨h2, h3, h4⟩⟩ := h
    · rw [h2.2]
    · simp only [Input.lastStop, h3, List.getLast?_nil, Option.map_none, Option.getD_none] at h1
      rw [h4, h1]

/-- Nothing in `D` can be merged with what follows. -/
def Closed (D : List Event) : Prop :=
  ∀ e, D.getLast? = some e → e.kind ≠ .str ∧ e.kind ≠ .placeholder ∧ ∀ c a, e.kind ≠ .attributes c a

structure InpSim (E : Nat) (m : Mode) (i j : Input) : Prop where
  src : j.src = i.src
  span : j.span = i.span
  lex : Lex.LexEq i.lexer j.lexer
  lines : LinesRel E m i j

structure Sim (D : List Event) (E : Nat) (m : Mode) (p q : IP) : Prop where
  inp : InpSim E m p.input q.input
  openers : q.openers = p.openers.map (fun o => (o.1.shift D.length, o.2 + D.length))
  events : q.events = D ++ p.events
  verbatim : q.verbatim = p.verbatim.map (·.shift D.length)
  attributes : q.attributes = p.attributes.map (·.shift D.length)
  cow : q.storeCowstrs.length = p.storeCowstrs.length
  attrs : q.storeAttributes = p.storeAttributes
  vf : p.verbatim = none → p.input.lexer.verbatim = false

/-! ## Lexers -/

theorem token_verb (l : Lex.Lexer) : l.token.2.verbatim = l.verbatim := by
  unfold Lex.Lexer.token
  split <;> rfl

theorem concatText_verb (l : Lex.Lexer) (n : Nat) : (l.concatText n).2.verbatim = l.verbatim := by
  fun_induction Lex.Lexer.concatText l n with
  | case1 l len n l' hl ih => rw [ih, ← token_verb l, hl]
  | case2 l len t l' hne hl => simp only; rw [← token_verb l, hl]

theorem nextTok_verb (l : Lex.Lexer) : l.nextTok.2.verbatim = l.verbatim := by
  unfold Lex.Lexer.nextTok
  split
  · rfl
  · unfold Lex.Lexer.nextToken
    split
    · rename_i n l' hl
      simp only
      rw [concatText_verb, ← token_verb l, hl]
    · rename_i t l' _ hl
      simp only
      rw [← token_verb l, hl]

theorem peek_verb (l : Lex.Lexer) : l.peek.2.verbatim = l.verbatim := by
  unfold Lex.Lexer.peek
  split
  · rfl
  · exact token_verb l

/-! ## Input -/

variable {D : List Event} {E : Nat} {m : Mode}

theorem eat_eq (i : Input) : i.eat = (i.lexer.nextTok.1, { i with lexer := i.lexer.nextTok.2, span := ⟨i.span.start, i.span.stop + (i.lexer.nextTok.1.map (·.len)).getD 0⟩ }) := by
  unfold Input.eat
  cases h : i.lexer.nextTok with
  | mk o l => cases o <;> rfl

theorem InpSim.eat {i j : Input} (h : InpSim E m i j) : j.eat.1 = i.eat.1 ∧ InpSim E m i.eat.2 j.eat.2 := by
  have h1 := h.lex.nextTok
  rw [eat_eq, eat_eq]
  refine ⟨h1.1.symm, h.src, ?_, h1.2, h.lines⟩
  simp only
  rw [h.span, h1.1]

theorem InpSim.peek {i j : Input} (h : InpSim E m i j) : j.peek.1 = i.peek.1 ∧ InpSim E m i.peek.2 j.peek.2 :=
  ⟨h.lex.peek.1.symm, h.src, h.span, h.lex.peek.2, h.lines⟩

theorem InpSim.peekKind {i j : Input} (h : InpSim E m i j) : j.peekKind.1 = i.peekKind.1 ∧ InpSim E m i.peekKind.2 j.peekKind.2 := by
  unfold Input.peekKind
  rw [h.peek.1]
  exact ⟨rfl, h.peek.2⟩

theorem InpSim.resetSpan {i j : Input} (h : InpSim E m i j) : InpSim E m i.resetSpan j.resetSpan :=
  ⟨h.src, by unfold Input.resetSpan; rw [h.span], h.lex, h.lines⟩

theorem eat_verb (i : Input) : i.eat.2.lexer.verbatim = i.lexer.verbatim := by rw [eat_eq]; exact nextTok_verb _
theorem peek_verb' (i : Input) : i.peek.2.lexer.verbatim = i.lexer.verbatim := peek_verb _
theorem peekKind_verb (i : Input) : i.peekKind.2.lexer.verbatim = i.lexer.verbatim := peek_verb _

/-! ## Changes of the state -/

theorem Sim.input {p q : IP} (h : Sim D E m p q) {i j : Input} (hi : InpSim E m i j) (hv : p.verbatim = none → i.lexer.verbatim = false) :
    Sim D E m { p with input := i } { q with input := j } :=
  ⟨hi, h.openers, h.events, h.verbatim, h.attributes, h.cow, h.attrs, hv⟩

theorem Sim.evs {p q : IP} (h : Sim D E m p q) {es es' : List Event} (he : es' = D ++ es) : Sim D E m { p with events := es } { q with events := es' } :=
  ⟨h.inp, h.openers, he, h.verbatim, h.attributes, h.cow, h.attrs, h.vf⟩

theorem Sim.pushSp {p q : IP} (h : Sim D E m p q) (k : EventKind) (sp : Span) : Sim D E m (p.pushSp k sp) (q.pushSp k sp) :=
  h.evs (by rw [h.events, List.append_assoc])

theorem Sim.push {p q : IP} (h : Sim D E m p q) (k : EventKind) : Sim D E m (p.push k) (q.push k) := by
  unfold IP.push
  rw [h.inp.span]
  exact h.pushSp k _

theorem Sim.peeked {p q : IP} (h : Sim D E m p q) : Sim D E m { p with input := p.input.peekKind.2 } { q with input := q.input.peekKind.2 } :=
  h.input h.inp.peekKind.2 (fun hv => by rw [peekKind_verb]; exact h.vf hv)

theorem Sim.eaten {p q : IP} (h : Sim D E m p q) : Sim D E m { p with input := p.input.eat.2 } { q with input := q.input.eat.2 } :=
  h.input h.inp.eat.2 (fun hv => by rw [eat_verb]; exact h.vf hv)

theorem Sim.attr {p q : IP} (h : Sim D E m p q) (st : Option AttributesState) :
    Sim D E m { p with attributes := st } { q with attributes := st.map (·.shift D.length) } :=
  ⟨h.inp, h.openers, h.events, h.verbatim, rfl, h.cow, h.attrs, h.vf⟩

theorem Sim.attr_none {p q : IP} (h : Sim D E m p q) : Sim D E m { p with attributes := none } { q with attributes := none } :=
  h.attr none

/-! ## Queues -/

theorem idx_app {es : List Event} {i : Nat} : idx (D ++ es) (i + D.length) = idx es i := by
  unfold idx
  rw [List.getElem?_append_right (by omega), Nat.add_sub_cancel]

theorem set_app {es : List Event} {i : Nat} {e : Event} : (D ++ es).set (i + D.length) e = D ++ es.set i e := by
  rw [List.set_append_right _ _ (by omega), Nat.add_sub_cancel]

theorem setKind_app {es : List Event} {i : Nat} {k : EventKind} {r r' : List Event} (h : setKind es i k = .ok r) (h' : setKind (D ++ es) (i + D.length) k = .ok r') :
    r' = D ++ r := by
  unfold setKind at h h'
  rw [idx_app] at h'
  obtain ⟨e, h1, h⟩ := bind_ok h
  obtain ⟨e', h1', h'⟩ := bind_ok h'
  rw [h1] at h1'
  cases h1'
  cases h; cases h'
  exact set_app

theorem setStop_app {es : List Event} {i n : Nat} {r r' : List Event} (h : setStop es i n = .ok r) (h' : setStop (D ++ es) (i + D.length) n = .ok r') :
    r' = D ++ r := by
  unfold setStop at h h'
  rw [idx_app] at h'
  obtain ⟨e, h1, h⟩ := bind_ok h
  obtain ⟨e', h1', h'⟩ := bind_ok h'
  rw [h1] at h1'
  cases h1'
  cases h; cases h'
  exact set_app

theorem enterAt_app {es : List Event} {i : Nat} : enterAt (D ++ es) (i + D.length) = enterAt es i := by
  unfold enterAt
  rw [idx_app]

theorem csub_some {a b r : Nat} (h : csub a b = .ok r) : b ≤ a ∧ r = a - b := by
  unfold csub at h
  split at h
  · cases h; exact ⟨‹_›, rfl⟩
  · cases h

theorem csub_app {a b r r' n : Nat} (h : csub a b = .ok r) (h' : csub (a + n) b = .ok r') : r' = r + n := by
  have := csub_some h
  have := csub_some h'
  omega

theorem last_app {es : List Event} {r r' : Nat} (h : csub es.length 1 = .ok r) (h' : csub (D ++ es).length 1 = .ok r') : r' = r + D.length := by
  have := csub_some h
  have := csub_some h'
  simp only [List.length_append] at this
  omega

theorem getLast_app (es : List Event) : (D ++ es).getLast? = es.getLast?.or D.getLast? := by
  cases es with
  | nil => simp
  | cons a b => rw [List.getLast?_append]

/-- The last event is text in the same cases. -/
theorem Closed.str (hD : Closed D) (es : List Event) : (D ++ es).getLast?.any (fun e => e.kind == .str) = es.getLast?.any (fun e => e.kind == .str) := by
  rw [getLast_app]
  cases h : es.getLast? with
  | some e => simp
  | none =>
    cases hd : D.getLast? with
    | none => simp
    | some e =>
      have := (hD e hd).1
      simp [this]

end Jotdown.Inline
