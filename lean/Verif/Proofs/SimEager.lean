import Verif.Proofs.SimEmit
import Verif.Proofs.SimFlow
import Verif.Proofs.InlIter
import Verif.Spec.Ids
/-! # Runs of the inline parser that emit events as early as possible -/
namespace Jotdown.Inline
open Jotdown
open Jotdown.Block
open Jotdown.Notation

/-- The events emitted by `p` when it is given the lines. -/
inductive Eager : List Span → IP → List Event → Prop
  | cont {ls p p' es} : p.needMore = true → p.parseEvent = .ok (p', .cont) → Eager ls p' es → Eager ls p es
  | next {ls p p' p'' l rest es} : p.needMore = true → p.parseEvent = .ok (p', .next) → p'.input.ahead = l :: rest → p'.nextLine l rest = .ok p'' → Eager ls p'' es → Eager ls p es
  | feed {ls l p p' p'' es} {f : Flow} : p.needMore = true → p.parseEvent = .ok (p', f) → (f = .more ∨ f = .next ∧ p'.input.ahead = []) →
      p'.feedLine l ls.isEmpty = .ok p'' → Eager ls p'' es → Eager (l :: ls) p es
  | stop {p p'} {f : Flow} : p.needMore = true → p.parseEvent = .ok (p', f) → (f = .more ∨ f = .next ∧ p'.input.ahead = []) → Eager [] p []
  | done {p p' p'' es} : p.needMore = true → p.parseEvent = .ok (p', .done) → p'.autoClose = .ok p'' → Emits p.input.src p''.events es → Eager [] p es
  | flush {ls p es es'} : p.needMore = false → Emits p.input.src p.events es → Eager ls { p with events := [] } es' → Eager ls p (es ++ es')

/-- A parser that has no more events for now goes on with the lines. -/
inductive Rested : List Span → IP → List Event → Prop
  | nil {p} : Rested [] p []
  | feed {ls l p p' es} : p.feedLine l ls.isEmpty = .ok p' → Eager ls p' es → Rested (l :: ls) p es

/-- Everything was read. -/
structure Finished (p : IP) : Prop where
  verb : p.verbatim = none
  last : p.input.last = true
  next : p.input.lexer.next = none
  rest : p.input.lexer.rest = []

theorem nextTok_end {l : Lex.Lexer} (h : l.nextTok.1 = none) : l.nextTok.2.next = none ∧ l.nextTok.2.rest = [] := by
  unfold Lex.Lexer.nextTok at h ⊢
  split at h
  · cases h
  · rename_i hn
    unfold Lex.Lexer.nextToken at h ⊢
    split at h
    · cases h
    · rename_i t l' hne ht
      simp only at h ⊢
      subst h
      unfold Lex.Lexer.token at ht
      split at ht
      · rename_i e he
        cases ht
        exact ⟨hn, (Lex.tokenAt_none _ _ _ _ he).1⟩
      · cases ht

theorem end_nextTok {l : Lex.Lexer} (hn : l.next = none) (hr : l.rest = []) : l.nextTok = (none, { l with escape := false }) := by
  unfold Lex.Lexer.nextTok
  rw [hn]
  simp only
  unfold Lex.Lexer.nextToken Lex.Lexer.token
  rw [hr]
  have : Lex.tokenAt l.escape l.verbatim [] = (none, false) := by cases l.escape <;> rfl
  rw [this]
  simp only [hn]

theorem done_state {p : IP} {r : IP} (h : p.parseEvent = .ok (r, .done)) : r.input.last = true ∧ r.input.lexer.next = none ∧ r.input.lexer.rest = [] ∧ r.input.src = p.input.src := by
  unfold IP.parseEvent at h
  split at h
  · exact absurd rfl (parseToken_goes h)
  · rename_i ht
    rw [eat_eq] at ht h
    have h1 := nextTok_end ht
    simp only at ht h
    have h2 := Prod.mk.inj (Except.ok.inj h)
    rw [← h2.1]
    refine ⟨?_, h1.1, h1.2, rfl⟩
    have h3 := h2.2
    cases hl : p.input.last with
    | true => exact hl
    | false => rw [hl] at h3; cases h3

theorem Finished.event {p : IP} (h : Finished p) : ∃ i, p.parseEvent = .ok ({ p with input := i }, .done) ∧ Finished { p with input := i } ∧ i.src = p.input.src := by
  have h1 : p.input.resetSpan.lexer.nextTok = (none, { p.input.lexer with escape := false }) := end_nextTok h.next h.rest
  refine ⟨(p.input.resetSpan.eat).2, ?_, ?_, ?_⟩
  · unfold IP.parseEvent
    rw [eat_eq, h1, h.last]
    rfl
  · rw [eat_eq, h1]
    exact ⟨h.verb, h.last, h.next, h.rest⟩
  · rw [eat_eq]; rfl

theorem Finished.evs {p : IP} (h : Finished p) (es : List Event) : Finished { p with events := es } := ⟨h.verb, h.last, h.next, h.rest⟩

theorem Finished.eager {p : IP} (h : Finished p) {ls : List Span} {es : List Event} (he : Eager ls p es) : ls = [] ∧ Emits p.input.src p.events es := by
  induction he with
  | cont _ g => obtain ⟨i, h1, h2, h3⟩ := h.event; rw [h1] at g; cases g
  | next _ g => obtain ⟨i, h1, h2, h3⟩ := h.event; rw [h1] at g; cases g
  | feed _ g1 g2 => obtain ⟨i, h1, h2, h3⟩ := h.event; rw [h1] at g1; cases g1; rcases g2 with g2 | ⟨g2, _⟩ <;> cases g2
  | stop _ g1 g2 => obtain ⟨i, h1, h2, h3⟩ := h.event; rw [h1] at g1; cases g1; rcases g2 with g2 | ⟨g2, _⟩ <;> cases g2
  | done _ g1 g2 g3 =>
    obtain ⟨i, h1, h2, h3⟩ := h.event
    rw [h1] at g1
    cases g1
    rw [autoClose_none h2.verb] at g2
    cases g2
    exact ⟨rfl, g3⟩
  | flush _ g1 g2 ih =>
    obtain ⟨b1, b2⟩ := ih (h.evs [])
    cases b2
    rw [List.append_nil]
    exact ⟨b1, g1⟩

/-- The rest of a queue. -/
theorem Eager.rest {p : IP} {q : List Event} {ls : List Span} {es : List Event} (hn : q ≠ [] → ({ p with events := q } : IP).needMore = false) (h : Eager ls { p with events := q } es) :
    ∃ es1 es2, es = es1 ++ es2 ∧ Emits p.input.src q es1 ∧ Eager ls { p with events := [] } es2 := by
  cases q with
  | nil => exact ⟨[], es, rfl, .nil, h⟩
  | cons a b =>
    have hn := hn (by simp)
    cases h with
    | cont g => rw [hn] at g; cases g
    | next g => rw [hn] at g; cases g
    | feed g => rw [hn] at g; cases g
    | stop g => rw [hn] at g; cases g
    | done g => rw [hn] at g; cases g
    | flush _ g1 g2 => exact ⟨_, _, rfl, g1, g2⟩

theorem needMore_false {p : IP} (h : p.needMore = false) : p.events ≠ [] ∧ p.openers = [] ∧ p.verbatim = none ∧ p.attributes = none ∧ NoStr p.events := by
  unfold IP.needMore at h
  simp only [Bool.or_eq_false_iff] at h
  obtain ⟨⟨⟨⟨h1, h2⟩, h3⟩, h4⟩, h5⟩ := h
  refine ⟨?_, ?_, ?_, ?_, h5⟩
  · intro h; rw [h] at h1; cases h1
  · cases hx : p.openers with
    | nil => rfl
    | cons a b => rw [hx] at h2; simp at h2
  · cases hx : p.verbatim with
    | none => rfl
    | some v => rw [hx] at h3; simp at h3
  · cases hx : p.attributes with
    | none => rfl
    | some v => rw [hx] at h4; simp at h4

theorem needMore_of {p : IP} {q : List Event} (h : p.needMore = false) (hq : q ≠ []) (hs : NoStr q) : ({ p with events := q } : IP).needMore = false := by
  obtain ⟨-, h2, h3, h4, -⟩ := needMore_false h
  unfold IP.needMore
  simp only [h2, h3, h4]
  cases q with
  | nil => exact absurd rfl hq
  | cons a b => unfold NoStr at hs; rw [hs]; rfl

/-- The results of the loop. -/
inductive FillRun (p : IP) (r : IP × Bool) : Prop
  | ready : r.2 = true → r.1.needMore = false → (∀ ls es, Eager ls r.1 es → Eager ls p es) → FillRun p r
  | done (p0 : IP) : r.2 = true → p0.needMore = true → p0.parseEvent = .ok (r.1, .done) → (∀ ls es, Eager ls p0 es → Eager ls p es) → FillRun p r
  | wait : r.2 = false → (∀ ls es, Rested ls r.1 es → Eager ls p es) → FillRun p r

theorem fill_run (fuel : Nat) {p : IP} {r : IP × Bool} (h : p.fill fuel = .ok r) : FillRun p r := by
  induction fuel generalizing p with
  | zero => cases h
  | succ n ih =>
    unfold IP.fill at h
    cases hn : p.needMore with
    | false =>
      rw [hn] at h
      simp only [Bool.false_eq_true, if_false] at h
      cases h
      exact .ready rfl hn (fun _ _ h => h)
    | true =>
      rw [hn] at h
      simp only [if_true] at h
      replace h := bind_ok h
      obtain ⟨⟨p1, f⟩, h1, h⟩ := h
      cases f with
      | cont =>
        have h2 := ih h
        cases h2 with
        | ready a b c => exact .ready a b (fun ls es he => .cont hn h1 (c ls es he))
        | done p0 a b c d => exact .done p0 a b c (fun ls es he => .cont hn h1 (d ls es he))
        | wait a b => exact .wait a (fun ls es he => .cont hn h1 (b ls es he))
      | done =>
        cases h
        exact .done p rfl hn h1 (fun _ _ h => h)
      | next =>
        simp only at h
        cases ha : p1.input.ahead with
        | nil =>
          rw [ha] at h
          cases h
          refine .wait rfl ?_
          intro ls es he
          cases he with
          | nil => exact .stop hn h1 (.inr ⟨rfl, ha⟩)
          | feed g1 g2 => exact .feed hn h1 (.inr ⟨rfl, ha⟩) g1 g2
        | cons l rest =>
          rw [ha] at h
          replace h := bind_ok h
          obtain ⟨p2, h2, h⟩ := h
          have h3 := ih h
          cases h3 with
          | ready a b c => exact .ready a b (fun ls es he => .next hn h1 ha h2 (c ls es he))
          | done p0 a b c d => exact .done p0 a b c (fun ls es he => .next hn h1 ha h2 (d ls es he))
          | wait a b => exact .wait a (fun ls es he => .next hn h1 ha h2 (b ls es he))
      | more =>
        cases h
        refine .wait rfl ?_
        intro ls es he
        cases he with
        | nil => exact .stop hn h1 (.inl rfl)
        | feed g1 g2 => exact .feed hn h1 (.inl rfl) g1 g2

theorem autoClose_verb {p p' : IP} (h : p.autoClose = .ok p') : p'.verbatim = none ∧ p'.input.src = p.input.src ∧ p'.input.last = p.input.last ∧
    p'.input.lexer.next = p.input.lexer.next ∧ p'.input.lexer.rest = p.input.lexer.rest := by
  unfold IP.autoClose at h
  split at h
  · cases h; exact ⟨‹_›, rfl, rfl, rfl, rfl⟩
  · replace h := bind_ok h
    obtain ⟨ty, _, h⟩ := h
    replace h := bind_ok h
    obtain ⟨_, _, h⟩ := h
    cases h
    exact ⟨rfl, rfl, rfl, rfl, rfl⟩

/-- An event is taken from the queue. -/
theorem fill_emits {p p2 : IP} {r : IP × Bool} (hr : FillRun p r) (ht : r.2 = true) (h2 : r.1.autoClose = .ok p2) {e : Event} {rest : List Event} (he : p2.events = e :: rest)
    {r3 : IP × Option Event} (h3 : ({ p2 with events := rest } : IP).emit e = .ok r3) {ls : List Span} {es : List Event} (h : Eager ls r3.1 es) :
    Eager ls p (r3.2.toList ++ es) := by
  obtain ⟨h4, h5⟩ := emit_on h3
  cases hr with
  | wait a => rw [ht] at a; cases a
  | ready _ a b =>
    obtain ⟨-, c1, c2, c3, c4⟩ := needMore_false a
    rw [autoClose_none c2] at h2
    cases h2
    rw [h5] at h
    obtain ⟨es1, es2, d1, d2, d3⟩ := Eager.rest (p := r.1) (fun hne => needMore_of a hne (emit_str h4 (by rw [← he]; exact c4))) h
    refine b _ _ ?_
    rw [d1, ← List.append_assoc]
    refine .flush a ?_ d3
    rw [he]
    exact .step h4 d2
  | done p0 _ a b c =>
    obtain ⟨g1, g2, g3, g4⟩ := done_state b
    obtain ⟨k1, k2, k3, k4, k5⟩ := autoClose_verb h2
    have hf : Finished r3.1 := by
      rw [h5]
      exact ⟨k1, k3.trans g1, k4.trans g2, k5.trans g3⟩
    obtain ⟨rfl, hm⟩ := hf.eager h
    refine c _ _ (.done a b h2 ?_)
    rw [he, ← g4, ← k2]
    refine .step h4 ?_
    rw [h5] at hm
    exact hm

theorem feed_complete {p p' : IP} {l : Span} {b : Bool} (h : p.feedLine l b = .ok p') : p.input.complete = false := by
  unfold IP.feedLine Input.feedLine at h
  cases hc : p.input.complete with
  | false => rfl
  | true => rw [hc] at h; cases h

theorem next_run (fuel : Nat) {p : IP} {r : IP × Option Event} (h : p.next fuel = .ok r) :
    match r.2 with
    | some e => ∀ ls es, Eager ls r.1 es → Eager ls p (e :: es)
    | none => ∀ ls es, Rested ls r.1 es → Eager ls p es := by
  induction fuel generalizing p with
  | zero => cases h
  | succ n ih =>
    unfold IP.next at h
    replace h := bind_ok h
    obtain ⟨r0, h1, h⟩ := h
    have hr := fill_run _ h1
    cases ht : r0.2 with
    | false =>
      rw [ht] at h
      cases h
      intro ls es he
      cases hr with
      | ready a => rw [ht] at a; cases a
      | done _ a => rw [ht] at a; cases a
      | wait _ a => exact a _ _ he
    | true =>
      rw [ht] at h
      simp only [if_true] at h
      replace h := bind_ok h
      obtain ⟨p2, h2, h⟩ := h
      cases he : p2.events with
      | nil =>
        rw [he] at h
        cases h
        intro ls es hx
        cases hr with
        | wait a => rw [ht] at a; cases a
        | ready _ a _ =>
          obtain ⟨c0, c1, c2, c3, c4⟩ := needMore_false a
          rw [autoClose_none c2] at h2
          cases h2
          exact absurd he c0
        | done p0 _ a b c =>
          obtain ⟨g1, g2, g3, g4⟩ := done_state b
          obtain ⟨k1, k2, k3, k4, k5⟩ := autoClose_verb h2
          cases hx with
          | nil => exact c _ _ (.done a b h2 (by rw [he]; exact .nil))
          | feed f1 _ =>
            have := feed_complete f1
            rw [← k3] at g1
            unfold Input.last at g1
            rw [this] at g1
            cases g1
      | cons e rest =>
        rw [he] at h
        replace h := bind_ok h
        obtain ⟨r3, h3, h⟩ := h
        have hs := fun ls es => fill_emits hr ht h2 he h3 (ls := ls) (es := es)
        cases ho : r3.2 with
        | some x =>
          simp only [ho] at h
          cases h
          simp only
          intro ls es hx
          have := hs ls es hx
          rwa [ho] at this
        | none =>
          simp only [ho] at h
          have := ih h
          rw [ho] at hs
          cases hr2 : r.2 with
          | none => rw [hr2] at this; exact fun ls es hx => hs _ _ (this ls es hx)
          | some x => rw [hr2] at this; exact fun ls es hx => hs _ _ (this ls es hx)

theorem drains_run {p p' : IP} {es : List Event} (h : Drains p es p') : ∀ ls es', Rested ls p' es' → Eager ls p (es ++ es') := by
  induction h with
  | none h => exact fun ls es' hr => next_run _ h ls es' hr
  | some h _ ih => exact fun ls es' hr => next_run _ h ls _ (ih ls es' hr)

theorem drainsLines_run {p : IP} {ls : List Span} {es : List Event} (h : DrainsLines p ls es) : Rested ls p es := by
  induction h with
  | nil => exact .nil
  | cons h1 h2 _ ih => exact .feed h1 (drains_run h2 _ _ ih)

end Jotdown.Inline
