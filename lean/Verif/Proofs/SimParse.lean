import Verif.Proofs.SimAttr
/-! # Tokens in parsers that read the same text -/
namespace Jotdown.Inline
open Jotdown

variable {D : List Event} {E : Nat} {m : Mode}

/-- The second parser waits for attributes after a closed element. -/
structure Lag (D : List Event) (E : Nat) (r r' : IP × Option Flow) : Prop where
  ex : ∃ p0 q0 ty start x f, Sim D E .pre p0 q0 ∧ p0.attributes = none ∧ Lagging D E p0 q0 ⟨ty, start, 0, .start⟩ false true (r.1, f) (r'.1, some .more) start x ∧
    r.2 = some (f.getD .cont)
  more : r'.2 = some .more

inductive Agree (D : List Event) (E : Nat) (m : Mode) (r r' : IP × Option Flow) : Prop
  | same : Same D E m r r' → Agree D E m r r'
  | lag : m = .pre → Lag D E r r' → Agree D E m r r'

theorem Agree.eq {p q : IP} {f : Option Flow} (h : Sim D E m p q) : Agree D E m (p, f) (q, f) := .same ⟨rfl, h⟩

theorem finish_flow {p : IP} {start : Nat} {s : AttrScan} {r : IP × Option Flow} (h : p.finishAttributes start s = .ok r) : r.2 = none ∨ r.2 = some .cont := by
  unfold IP.finishAttributes at h
  split at h
  · cases h; exact .inl rfl
  · obtain ⟨a, g1, h⟩ := bind_ok h
    obtain ⟨a, g1, h⟩ := bind_ok h
    obtain ⟨a, g1, h⟩ := bind_ok h
    obtain ⟨a, g1, h⟩ := bind_ok h
    cases h; exact .inr rfl

theorem more_flow {p : IP} {start : Nat} {st : AttributesState} {e : Bool} {r : IP × Option Flow} (h : p.moreAttributes start st e = .ok r) : r.2 = some .more := by
  unfold IP.moreAttributes at h
  split at h
  · obtain ⟨a, g1, h⟩ := bind_ok h
    cases h; rfl
  · cases h; rfl

theorem aheadOr_sim {p q : IP} {ty : ElemTy} {r r' : IP × Option Flow} (h : Sim D E m p q) (ha : p.attributes = none) (h1 : p.aheadAttributesOr ty = .ok r)
    (h2 : q.aheadAttributesOr (ty.shift D.length) = .ok r') : Agree D E m r r' := by
  unfold IP.aheadAttributesOr at h1 h2
  replace h1 := bind_ok h1
  replace h2 := bind_ok h2
  obtain ⟨x, h1, g1⟩ := h1
  obtain ⟨y, h2, g2⟩ := h2
  cases g1; cases g2
  unfold IP.aheadAttributes at h1 h2
  simp only [Bool.false_eq_true, if_false] at h1 h2
  replace h1 := bind_ok h1
  replace h2 := bind_ok h2
  obtain ⟨e, c1, h1⟩ := h1
  obtain ⟨e', c2, h2⟩ := h2
  rw [h.inp.span, c1] at c2
  cases c2
  have he : e = p.input.span.stop := by have := csub_some c1; omega
  subst he
  cases m with
  | same =>
    have := resume_same h (st := ⟨ty, p.input.span.stop, 0, .start⟩) h1 h2
    exact .same ⟨by simp only [this.flow], this.sim⟩
  | pre =>
    rcases resume_pre h (st := ⟨ty, p.input.span.stop, 0, .start⟩) h1 h2 with this | ⟨start, s, hl⟩
    · exact .same ⟨by simp only [this.flow], this.sim⟩
    · refine .lag rfl ⟨⟨p, q, ty, start, s, x.2, h, ha, ?_, rfl⟩, by rw [more_flow hl.more]; rfl⟩
      obtain ⟨l, part, v, R⟩ := hl.resumed
      have hs : start = p.input.span.stop := by
        have := csub_some R.hstart
        simp at this; exact this
      subst hs
      refine ⟨hl.resumed, ?_, hl.next, hl.stop⟩
      have := more_flow hl.more
      rw [hl.more]
      simp only
      rw [← this]
  | post =>
    have := resume_post h (st := ⟨ty, p.input.span.stop, 0, .start⟩) rfl h1 h2
    exact .same ⟨by simp only [this.flow], this.sim⟩

/-! ## Verbatim -/

theorem InpSim.eatRaw {i j : Input} {n : Nat} {r r' : Option Span × Input} (h : InpSim E m i j) (h1 : i.eatRawFormat n = .ok r) (h2 : j.eatRawFormat n = .ok r') :
    r'.1 = r.1 ∧ InpSim E m r.2 r'.2 ∧ r.2.lexer.verbatim = false := by
  unfold Input.eatRawFormat at h1 h2
  obtain ⟨u, a1, h1⟩ := bind_ok h1
  obtain ⟨u', a2, h2⟩ := bind_ok h2
  obtain ⟨l, b1, h1⟩ := bind_ok h1
  obtain ⟨l', b2, h2⟩ := bind_ok h2
  have := h.eat.2.lex.skipAhead b1 b2
  subst this
  cases h1; cases h2
  refine ⟨by simp only; rw [h.eat.2.span], ⟨h.eat.2.src, h.eat.2.span, .refl _, h.eat.2.lines⟩, ?_⟩
  unfold Lex.Lexer.skipAhead at b1
  obtain ⟨s, _, b1⟩ := bind_ok b1
  cases b1; rfl

theorem skipAhead_verb {l l' : Lex.Lexer} {n : Nat} (h : l.skipAhead n = .ok l') : l'.verbatim = false := by
  unfold Lex.Lexer.skipAhead at h
  obtain ⟨s, _, h⟩ := bind_ok h
  cases h; rfl

theorem InpSim.raw {i j : Input} {r r' : Option Span × Input} (h : InpSim E m i j) (h1 : i.aheadRawFormat = .ok r) (h2 : j.aheadRawFormat = .ok r') :
    r'.1 = r.1 ∧ InpSim E m r.2 r'.2 := by
  have hp := h.peekKind
  unfold Input.aheadRawFormat at h1 h2
  rw [hp.1] at h2
  by_cases hk : i.peekKind.1 = some (.opn .braceEqual)
  · rw [if_pos hk] at h1 h2
    obtain ⟨a, a1, h1⟩ := bind_ok h1
    obtain ⟨a', a2, h2⟩ := bind_ok h2
    have := hp.2.lex.ahead a1 a2
    subst this
    split at h1
    · rename_i hc
      rw [if_pos hc] at h2
      have := hp.2.eatRaw h1 h2
      exact ⟨this.1, this.2.1⟩
    · rename_i hc
      rw [if_neg hc] at h2
      cases h1; cases h2
      exact ⟨rfl, hp.2⟩
  · rw [if_neg hk] at h1 h2
    cases h1; cases h2
    exact ⟨rfl, hp.2⟩

theorem rawFormat_sim {p q : IP} {e : Nat} {r r' : IP × Bool} (h : Sim D E m p q) (hv : p.verbatim ≠ none) (h1 : p.rawFormat e = .ok r)
    (h2 : q.rawFormat (e + D.length) = .ok r') : r'.2 = r.2 ∧ Sim D E m r.1 r'.1 ∧ r.1.verbatim = p.verbatim ∧ r.1.attributes = p.attributes := by
  unfold IP.rawFormat at h1 h2
  obtain ⟨a, a1, h1⟩ := bind_ok h1
  obtain ⟨b, b1, h2⟩ := bind_ok h2
  have hr := h.inp.raw a1 b1
  rw [hr.1] at h2
  cases ha : a.1 with
  | none =>
    rw [ha] at h1 h2
    cases h1; cases h2
    exact ⟨rfl, h.input hr.2 (fun hn => absurd hn hv), rfl, rfl⟩
  | some sp =>
    rw [ha] at h1 h2
    simp only at h1 h2
    rw [hr.2.src, h.events] at h2
    obtain ⟨f, a2, h1⟩ := bind_ok h1
    obtain ⟨f', b2, h2⟩ := bind_ok h2
    rw [a2] at b2; cases b2
    obtain ⟨es, a3, h1⟩ := bind_ok h1
    obtain ⟨es', b3, h2⟩ := bind_ok h2
    cases setKind_app a3 b3
    cases h1; cases h2
    refine ⟨rfl, ?_, rfl, rfl⟩
    exact (h.input (i := { a.2 with span := ⟨a.2.span.start, sp.stop + 1⟩ }) (j := { b.2 with span := ⟨b.2.span.start, sp.stop + 1⟩, src := a.2.src })
      ⟨rfl, by simp only; rw [hr.2.span], hr.2.lex, hr.2.lines⟩ (fun hn => absurd hn hv)).evs rfl

theorem truncate_other {v : VerbatimState} {es : List Event} (h : ∀ n, v.nonWsLast ≠ some (.seq .backtick, n)) : truncateVerbatim v es = .ok es := by
  unfold truncateVerbatim
  split
  · rename_i n heq; exact absurd heq (h n)
  · rfl

theorem truncate_app {v : VerbatimState} {es r r' : List Event} (h1 : truncateVerbatim v es = .ok r) (h2 : truncateVerbatim (v.shift D.length) (D ++ es) = .ok r') :
    r' = D ++ r := by
  have h1' := h1
  have h2' := h2
  unfold truncateVerbatim at h1 h2
  unfold VerbatimState.shift at h2
  cases hn : v.nonWsLast with
  | none => simp only [hn, Option.map_none] at h1 h2; cases h1; cases h2; rfl
  | some x =>
    obtain ⟨k, n⟩ := x
    simp only [hn, Option.map_some] at h1 h2
    by_cases hk : k = .seq .backtick
    · subst hk
      simp only at h1 h2
      split at h1
      · split at h2
        · cases h1; cases h2
          rw [List.take_append, List.take_of_length_le (by omega), Nat.add_sub_cancel]
        · cases h2
      · cases h1
    · have e1 := truncate_other (v := v) (es := es) (by intro n' hn'; rw [hn] at hn'; cases hn'; exact hk rfl)
      have e2 := truncate_other (v := v.shift D.length) (es := D ++ es) (by
        intro n' hn'
        simp only [VerbatimState.shift, hn, Option.map_some] at hn'
        cases hn'; exact hk rfl)
      rw [e1] at h1'
      rw [e2] at h2'
      cases h1'; cases h2'; rfl

theorem afterVerbatim_sim {p q : IP} {e : Nat} {r r' : IP × Option Flow} (h : Sim D E m p q) (ha : p.attributes = none) (h1 : p.afterVerbatim e = .ok r)
    (h2 : q.afterVerbatim (e + D.length) = .ok r') : Agree D E m r r' := by
  unfold IP.afterVerbatim at h1 h2
  rw [h.inp.peekKind.1] at h2
  by_cases hk : p.input.peekKind.1 = some (.opn .brace)
  · rw [if_pos hk] at h1 h2
    obtain ⟨n, a1, h1⟩ := bind_ok h1
    obtain ⟨n', b1, h2⟩ := bind_ok h2
    cases csub_app a1 b1
    exact aheadOr_sim (ty := .container n) h.peeked ha h1 h2
  · rw [if_neg hk] at h1 h2
    cases h1; cases h2
    exact .eq h.peeked

theorem closeVerbatim_sim {p q : IP} {v : VerbatimState} {r r' : IP × Option Flow} (h : Sim D E m p q) (hv : p.verbatim ≠ none) (ha : p.attributes = none)
    (h1 : p.closeVerbatim v = .ok r) (h2 : q.closeVerbatim (v.shift D.length) = .ok r') : Agree D E m r r' := by
  unfold IP.closeVerbatim at h1 h2
  obtain ⟨a, a1, h1⟩ := bind_ok h1
  obtain ⟨b, b1, h2⟩ := bind_ok h2
  obtain ⟨k1, k2, k3, k4⟩ := rawFormat_sim h hv a1 b1
  have hev : (v.shift D.length).eventOpener = v.eventOpener + D.length := rfl
  rw [k2.events, hev, enterAt_app] at h2
  obtain ⟨ty, a2, h1⟩ := bind_ok h1
  obtain ⟨ty', b2, h2⟩ := bind_ok h2
  rw [a2] at b2; cases b2
  obtain ⟨_, a3, h1⟩ := bind_ok h1
  obtain ⟨_, b3, h2⟩ := bind_ok h2
  obtain ⟨es, a4, h1⟩ := bind_ok h1
  obtain ⟨es', b4, h2⟩ := bind_ok h2
  cases truncate_app a4 b4
  rw [k1] at h2
  have hs : Sim D E m { a.1 with events := es ++ [⟨.exit ty, a.1.input.span⟩], input := { a.1.input with lexer := { a.1.input.lexer with verbatim := false } }, verbatim := none }
      { b.1 with events := (D ++ es) ++ [⟨.exit ty, b.1.input.span⟩], input := { b.1.input with lexer := { b.1.input.lexer with verbatim := false } }, verbatim := none } :=
    ⟨⟨k2.inp.src, k2.inp.span, k2.inp.lex.verbatim false, k2.inp.lines⟩, k2.openers, by simp only; rw [k2.inp.span, List.append_assoc], rfl, k2.attributes, k2.cow, k2.attrs, fun _ => rfl⟩
  by_cases hr : a.2 = true
  · simp only [hr, if_true] at h1 h2
    cases h1; cases h2
    exact .eq hs
  · simp only [hr, Bool.false_eq_true, if_false] at h1 h2
    exact afterVerbatim_sim hs (by simp only; rw [k4, ha]) h1 h2

theorem verbatimWs_sim {p q : IP} {v : VerbatimState} (h : Sim D E m p q) (hv : p.verbatim ≠ none) : Sim D E m (p.verbatimWs v) (q.verbatimWs (v.shift D.length)) := by
  have hp : Sim D E m { p with input := p.input.peek.2 } { q with input := q.input.peek.2 } := h.input h.inp.peek.2 (fun hn => absurd hn hv)
  unfold IP.verbatimWs
  rw [h.inp.peek.1]
  have e1 : (v.shift D.length).nonWsEncountered = v.nonWsEncountered := rfl
  have e2 : (v.shift D.length).lenOpener = v.lenOpener := rfl
  rw [e1, e2]
  split
  · split
    · exact hp
    · exact hp.push .str
  · exact h.push .str

theorem continueVerbatim_sim {p q : IP} {v : VerbatimState} {t : Lex.Token} {r r' : IP × Option Flow} (h : Sim D E m p q) (hv : p.verbatim ≠ none)
    (h1 : p.continueVerbatim v t = .ok r) (h2 : q.continueVerbatim (v.shift D.length) t = .ok r') : Agree D E m r r' := by
  unfold IP.continueVerbatim at h1 h2
  rw [h.inp.src, h.inp.span] at h2
  obtain ⟨s, a1, h1⟩ := bind_ok h1
  obtain ⟨s', b1, h2⟩ := bind_ok h2
  rw [a1] at b1; cases b1
  split at h1
  · rename_i hc
    rw [if_pos hc] at h2
    cases h1; cases h2
    exact .eq (verbatimWs_sim h hv)
  · rename_i hc
    rw [if_neg hc] at h2
    cases h1; cases h2
    have hs : Sim D E m { p with verbatim := some { v with nonWsEncountered := true, nonWsLast := some (t.kind, p.events.length + 1) } }
        { q with verbatim := some { v.shift D.length with nonWsEncountered := true, nonWsLast := some (t.kind, q.events.length + 1) } } := by
      refine ⟨h.inp, h.openers, h.events, ?_, h.attributes, h.cow, h.attrs, (fun hn => by simp at hn)⟩
      simp only [Option.map_some, VerbatimState.shift, h.events, List.length_append]
      rw [show D.length + p.events.length + 1 = p.events.length + 1 + D.length by omega]
    exact .eq (hs.push .str)

theorem dollarSpan_sim {p q : IP} (hD : Closed D) (h : Sim D E m p q) : q.dollarSpan = p.dollarSpan := by
  unfold IP.dollarSpan
  rw [h.events, getLast_app, h.inp.src, h.inp.span]
  cases hl : p.events.getLast? with
  | some e => rfl
  | none =>
    cases hd : D.getLast? with
    | none => rfl
    | some e =>
      have := (hD e hd).1
      simp only [Option.none_or, this, if_false]

theorem dollarSpan_some {p : IP} {sp : Span} (h : p.dollarSpan = .ok (some sp)) : p.events ≠ [] := by
  intro hn
  unfold IP.dollarSpan at h
  rw [hn] at h
  simp at h

theorem mathSpan_sim {p q : IP} {o : Option Span} {r r' : IP × Container} (h : Sim D E m p q) (ho : ∀ sp, o = some sp → p.events ≠ []) (h1 : p.mathSpan o = .ok r) (h2 : q.mathSpan o = .ok r') :
    r'.2 = r.2 ∧ Sim D E m r.1 r'.1 ∧ r.1.verbatim = p.verbatim := by
  cases o with
  | none =>
    unfold IP.mathSpan at h1 h2
    cases h1; cases h2
    exact ⟨rfl, h, rfl⟩
  | some sp =>
    unfold IP.mathSpan at h1 h2
    rw [h.inp.src] at h2
    obtain ⟨d, a1, h1⟩ := bind_ok h1
    obtain ⟨d', b1, h2⟩ := bind_ok h2
    rw [a1] at b1; cases b1
    obtain ⟨n, a2, h1⟩ := bind_ok h1
    obtain ⟨n', b2, h2⟩ := bind_ok h2
    rw [a2] at b2; cases b2
    cases h1; cases h2
    refine ⟨rfl, ?_, rfl⟩
    have h3 : Sim D E m { p with input := { p.input with span := ⟨n, p.input.span.stop⟩ } }
        { q with input := { q.input with span := ⟨n, q.input.span.stop⟩ } } :=
      h.input ⟨h.inp.src, by simp only; rw [h.inp.span], h.inp.lex, h.inp.lines⟩ h.vf
    have hne := ho sp rfl
    have h4 := h3.evs (es := p.events.dropLast ++ [⟨.str, ⟨sp.start, n⟩⟩]) (es' := q.events.dropLast ++ [⟨.str, ⟨sp.start, n⟩⟩]) (by
      rw [h.events, List.dropLast_append_of_ne_nil hne, List.append_assoc])
    exact h4

theorem openVerbatim_sim {p q : IP} (hD : Closed D) {t : Lex.Token} {r r' : IP × Option Flow} (h : Sim D E m p q)
    (h1 : p.openVerbatim t = .ok r) (h2 : q.openVerbatim t = .ok r') : Agree D E m r r' := by
  unfold IP.openVerbatim at h1 h2
  by_cases ht : t.len < 256
  · rw [if_pos ht] at h1 h2
    rw [dollarSpan_sim hD h] at h2
    obtain ⟨sp, a1, h1⟩ := bind_ok h1
    obtain ⟨sp', b1, h2⟩ := bind_ok h2
    rw [a1] at b1; cases b1
    obtain ⟨a, a2, h1⟩ := bind_ok h1
    obtain ⟨b, b2, h2⟩ := bind_ok h2
    obtain ⟨k1, k2, k3⟩ := mathSpan_sim h (fun s hs => dollarSpan_some (by rw [a1, hs])) a2 b2
    cases h1; cases h2
    have h3 := k2.pushSp .placeholder ⟨a.1.input.span.start, a.1.input.span.start⟩
    rw [k1, k2.inp.span]
    have hs : Sim D E m { a.1.pushSp .placeholder ⟨a.1.input.span.start, a.1.input.span.start⟩ with
          input := { a.1.input with lexer := { a.1.input.lexer with verbatim := true } }
          verbatim := some { eventOpener := (a.1.pushSp .placeholder ⟨a.1.input.span.start, a.1.input.span.start⟩).events.length, lenOpener := t.len }
          attributes := none }
        { b.1.pushSp .placeholder ⟨a.1.input.span.start, a.1.input.span.start⟩ with
          input := { b.1.input with lexer := { b.1.input.lexer with verbatim := true } }
          verbatim := some { eventOpener := (b.1.pushSp .placeholder ⟨a.1.input.span.start, a.1.input.span.start⟩).events.length, lenOpener := t.len }
          attributes := none } := by
      refine ⟨⟨k2.inp.src, k2.inp.span, k2.inp.lex.verbatim true, k2.inp.lines⟩, h3.openers, h3.events, ?_, rfl, h3.cow, h3.attrs, (fun hn => by simp at hn)⟩
      simp only [h3.events, List.length_append, Option.map_some, VerbatimState.shift, Option.map_none]
      rw [Nat.add_comm]
    exact .eq (hs.push (.enter a.2))
  · rw [if_neg ht] at h1 h2
    cases h1; cases h2
    exact .eq h

theorem parseVerbatim_sim {p q : IP} (hD : Closed D) {t : Lex.Token} {r r' : IP × Option Flow} (h : Sim D E m p q) (ha : p.verbatim ≠ none → p.attributes = none)
    (h1 : p.parseVerbatim t = .ok r) (h2 : q.parseVerbatim t = .ok r') : Agree D E m r r' := by
  unfold IP.parseVerbatim at h1 h2
  rw [h.verbatim] at h2
  cases hv : p.verbatim with
  | some v =>
    rw [hv] at h1 h2
    simp only [Option.map_some] at h1 h2
    have e2 : (v.shift D.length).lenOpener = v.lenOpener := rfl
    rw [e2] at h2
    have hne : p.verbatim ≠ none := by rw [hv]; simp
    split at h1
    · rename_i hc
      rw [if_pos hc] at h2
      exact closeVerbatim_sim h hne (ha hne) h1 h2
    · rename_i hc
      rw [if_neg hc] at h2
      exact continueVerbatim_sim h hne h1 h2
  | none =>
    rw [hv] at h1 h2
    simp only [Option.map_none] at h1 h2
    split at h1
    · rename_i hc
      rw [if_pos hc] at h2
      exact openVerbatim_sim hD h h1 h2
    · rename_i hc
      rw [if_neg hc] at h2
      cases h1; cases h2
      exact .eq h

end Jotdown.Inline
