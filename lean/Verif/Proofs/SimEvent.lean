import Verif.Proofs.SimStep
/-! # Events of parsers that read the same text -/
namespace Jotdown.Inline
open Jotdown
open Jotdown.Block
open Jotdown.Notation

variable {D : List Event} {E : Nat} {m : Mode} {c : Cx}

/-- Before a step. -/
def Alive (c : Cx) (p : IP) : Prop := Live c p ∨ Fed c p

theorem Alive.inp {p : IP} (h : Alive c p) : InpOk c p.input := by
  rcases h with h | h
  · exact h.inp
  · obtain ⟨st, n, hw, _⟩ := h.wait
    exact hw.inp

theorem Alive.verb {p : IP} (h : Alive c p) : p.verbatim ≠ none → p.attributes = none := by
  rcases h with h | h
  · exact fun _ => h.attr
  · obtain ⟨st, n, hw, _⟩ := h.wait
    exact fun hv => absurd hw.verb hv

theorem Alive.event (hc : c.Ok) {p : IP} (h : Alive c p) : Sat Never p.parseEvent (EvOut c p) := by
  rcases h with h | h
  · exact parseEvent_live hc h
  · exact (parseEvent_fed hc h).mono (fun r hr => hr.2)

theorem rem_eq {l m : Lex.Lexer} {r : Bytes} (hl : Lex.Rem l r) (hm : Lex.Rem m r) (nl : l.next = none) (nm : m.next = none)
    (he : l.escape = m.escape) (hv : l.verbatim = m.verbatim) : Lex.LexEq l m := by
  have h1 := hl.rest
  have h2 := hm.rest
  simp only [Lex.Lexer.nextLen, nl, nm, Nat.sub_zero] at h1 h2
  exact .of (by rw [h1, h2]) nl nm he hv

theorem pending_feed {p q : IP} {l : Span} {b : Bool} (h : Pending c p) (hf : p.feedLine l b = .ok q) :
    q = { p with input := { p.input with complete := b, ahead := p.input.ahead ++ [l] } } := by
  obtain ⟨st, hw⟩ := h.wait
  unfold IP.feedLine Input.feedLine at hf
  rw [hw.inp.cpl, h.cpl] at hf
  simp only [dassert, Bool.not_false, if_true, Bind.bind, Except.bind] at hf
  have hx := hw.inp.rem.ahead
  rw [hx] at hf
  simp only at hf
  have hnil : (sliceOf c.src ⟨p.input.span.stop, p.input.spanLine.stop⟩).isEmpty = false := by
    cases hs : sliceOf c.src ⟨p.input.span.stop, p.input.spanLine.stop⟩ with
    | cons a b => rfl
    | nil =>
      have := hw.inp.rem
      rw [hs] at this
      have h1 := this.nextTok_nil
      rw [hw.tok] at h1
      cases h1
  rw [hnil] at hf
  simp only [Bool.false_eq_true, if_false, pure, Except.pure] at hf
  cases hf; rfl

/-- The first step after the empty line was fed. -/
theorem fed_step (hc : c.Ok) {q1 q2 : IP} {r3 : IP × Flow} {x : AttrScan} (hp : Pending c q1) (hat : q1.attributes = some (x.state.shift D.length))
    (hf : q1.feedLine ⟨E, E⟩ true = .ok q2) (h3 : q2.parseEvent = .ok r3) (hn : x.lineNext = q1.input.ahead.length) :
    ∃ y f, ({ q1 with attributes := none, input := { (q1.input.resetSpan.eat).2 with complete := true, ahead := q1.input.ahead ++ [⟨E, E⟩] } } : IP).finishAttributes
        q1.input.span.stop ((x.eps E).ty (x.state.elemTy.shift D.length)) = .ok y ∧ orElse (.ok y) (fun p => p.restToken ⟨.opn .brace, 1⟩) = .ok f ∧ r3 = tokEnd f := by
  have hq2 := pending_feed hp hf
  obtain ⟨st, hw⟩ := hp.wait
  have ht : (q2.input.resetSpan.eat).1 = some ⟨.opn .brace, 1⟩ := eat_of_peeked (by rw [hq2]; exact hw.tok)
  have he : (q2.input.resetSpan.eat).2 = { (q1.input.resetSpan.eat).2 with complete := true, ahead := q1.input.ahead ++ [⟨E, E⟩] } := by
    rw [eat_eq, eat_eq, hq2]; rfl
  have hsp : (q1.input.resetSpan.eat).2.span.stop = q1.input.span.stop + 1 := by
    rw [eat_eq]
    have : q1.input.resetSpan.lexer.nextTok.1 = some ⟨.opn .brace, 1⟩ := hw.tok
    simp only [this]
    rfl
  unfold IP.parseEvent at h3
  rw [ht] at h3
  simp only at h3
  rw [parseToken_eq] at h3
  replace h3 := bind_ok h3
  obtain ⟨f, h3, g3⟩ := h3
  cases g3
  rw [verbatim_brace (by rw [hq2]; exact hw.verb) rfl] at h3
  have h3 : orElse (IP.parseAttributes { q2 with input := (q2.input.resetSpan.eat).2 } ⟨.opn .brace, 1⟩) (fun p => p.restToken ⟨.opn .brace, 1⟩) = .ok f := h3
  obtain ⟨y, h4, h5⟩ := orElse_inv h3
  unfold IP.parseAttributes at h4
  rw [if_pos rfl] at h4
  have hat2 : q2.attributes = some (x.state.shift D.length) := by rw [hq2]; exact hat
  simp only [hat2] at h4
  rw [he, hq2] at h4
  have := resume_eps (p := q1) (E := E) (start := q1.input.span.stop) (x := x) rfl rfl (by simp only [hsp]; exact csub_ok (by omega)) h4 hn
  refine ⟨y, f, this, ?_, rfl⟩
  unfold orElse
  rcases h5 with ⟨rfl, fl, h5⟩ | ⟨h5, h6⟩
  · show (match y.2 with | some fl => pure (y.1, some fl) | none => _) = _
    rw [h5]
    show Except.ok (y.1, some fl) = _
    rw [← h5]
  · show (match y.2 with | some fl => pure (y.1, some fl) | none => _) = _
    rw [h5]
    exact h6

theorem finish_later {p0 p1 q2 : IP} (S : Sim D E .post p1 q2) (hp1 : p1 = { p0 with input := p1.input }) (hsrc : p1.input.src = p0.input.src)
    (hcp : p1.input.complete = p0.input.complete) (hah : p1.input.ahead = p0.input.ahead) (hsl : p1.input.spanLine = p0.input.spanLine)
    {x : AttrScan} {start : Nat} (hn : x.lineNext = p0.input.ahead.length) (hst : x.lineEnd = E) (hvl : x.state.validLines ≤ p0.input.ahead.length)
    (hq2 : q2.input.ahead = p0.input.ahead ++ [⟨E, E⟩])
    {f0 y : IP × Option Flow} (h1 : p0.finishAttributes start x = .ok f0) (h2 : q2.finishAttributes start ((x.eps E).ty (x.state.elemTy.shift D.length)) = .ok y) :
    (start ≠ x.state.endAttr ∧ Same D E .post f0 y ∧ f0.2 = some .cont) ∨ (start = x.state.endAttr ∧ f0 = (p0, none) ∧ y = (q2, none)) := by
  by_cases he : start = x.state.endAttr
  · right
    rw [finish_none he] at h1
    rw [finish_none (by exact he)] at h2
    cases h1; cases h2
    exact ⟨he, rfl, rfl⟩
  · left
    have hl : LinesRel E .post p0.input q2.input := by
      have := S.inp.lines
      unfold LinesRel Input.lastStop at this ⊢
      rw [hcp, hah, hsl] at this
      exact this
    have := finish_succ (p := p0) (q := q2) (i0 := p1.input) (j0 := q2.input) (start := start) (s := x) (s2 := (x.eps E).ty (x.state.elemTy.shift D.length))
      (r := f0) (r' := y) (by rw [← hp1]; exact S) (by rw [S.inp.src, hsrc]) (by rw [S.inp.lines.stop, hsl]) rfl (by rw [hst]; rfl)
      (by rw [hq2, List.take_append_of_le_length hvl]) (fun i j a b => hl.pop_eps hn a b) he h1 h2
    exact ⟨he, this.1, this.2⟩

/-- The results of a step. -/
inductive StepOut (D : List Event) (E : Nat) (m : Mode) (r r' : IP × Flow) : Prop
  | same : r'.2 = r.2 → Sim D E m r.1 r'.1 → StepOut D E m r r'
  | ends : r.2 = .done → r'.2 = .next → Sim D E m r.1 r'.1 → r.1.input.ahead = [] → m ≠ .same → StepOut D E m r r'
  | later : m = .pre → r'.2 = .more → (∀ q2 r3, r'.1.feedLine ⟨E, E⟩ true = .ok q2 → q2.parseEvent = .ok r3 →
      (r3.2 = r.2 ∧ Sim D E .post r.1 r3.1) ∨ (r.2 = .cont ∧ ∀ rp, r.1.parseEvent = .ok rp → r3.2 = rp.2 ∧ Sim D E .post rp.1 r3.1)) → StepOut D E m r r'

theorem brace_len (hc : c.Ok) {i i' : Input} {t : Lex.Token} (h : Ate c i t i') (ht : t.kind = .opn .brace) : t = ⟨.opn .brace, 1⟩ := by
  have h1 := h.text.1
  rw [ht] at h1
  have h2 : (sliceOf c.src ⟨i.span.stop, i.spanLine.stop⟩).take t.len = [c! '{'] := h1
  have h3 := h.inp.stop
  rw [h.span, h.line] at h3
  simp only at h3
  have h4 := h.inp.len hc
  rw [h.line] at h4
  have h5 := congrArg List.length h2
  rw [List.length_take, slice_length h4] at h5
  simp at h5
  obtain ⟨k, n⟩ := t
  simp only at ht h5 h3
  subst ht
  congr
  omega

theorem orElse_rest {y : IP × Option Flow} {fl : Flow} {t : Lex.Token} {f : IP × Option Flow} (hy : y.2 = some fl) (h : orElse (.ok y) (fun p => p.restToken t) = .ok f) : f = y := by
  obtain ⟨z, h1, h2⟩ := orElse_inv h
  cases h1
  rcases h2 with ⟨h2, _⟩ | ⟨h2, _⟩
  · exact h2.symm
  · rw [hy] at h2; cases h2

theorem orElse_rest_none {p : IP} {t : Lex.Token} {f : IP × Option Flow} (h : orElse (.ok (p, none)) (fun p => p.restToken t) = .ok f) : p.restToken t = .ok f := h

theorem LinesRel.fed {i j j' : Input} (h : LinesRel E .pre i j) (hc : j'.complete = true) (ha : j'.ahead = j.ahead ++ [⟨E, E⟩]) (hs : j'.spanLine = j.spanLine) : LinesRel E .post i j' := by
  obtain ⟨h1, h2, h3, h4, h5⟩ := h
  exact ⟨h1, hc, h5, .inl ⟨by rw [ha, h3], by rw [hs, h4]⟩⟩

theorem later_eat (hD : Closed D) (hc : c.Ok) {p q : IP} {t : Lex.Token} {r r' : IP × Flow} (hs : Sim D E .pre p q) (hv : p.verbatim = none)
    (ht : t = ⟨.opn .brace, 1⟩) (hrem : Lex.Rem q.input.lexer (sliceOf c.src ⟨q.input.span.stop, q.input.spanLine.stop⟩)) (hnx : q.input.lexer.next = none)
    (hesc : q.input.lexer.escape = false) (hspan : q.input.span.stop = q.input.span.start + 1)
    {st : AttributesState} {start : Nat} {x : AttrScan} {f0 : IP × Option Flow} {first : Bool} (hp : Pending c r'.1)
    (hl : Lagging D E { p with attributes := none } { q with attributes := none } st true first f0 (r'.1, some r'.2) start x)
    (hf : ∃ f1, orElse (.ok f0) (fun p => p.restToken t) = .ok f1 ∧ r = tokEnd f1) {q2 : IP} {r3 : IP × Flow}
    (h2 : r'.1.feedLine ⟨E, E⟩ true = .ok q2) (h3 : q2.parseEvent = .ok r3) : r3.2 = r.2 ∧ Sim D E .post r.1 r3.1 := by
  obtain ⟨f1, hf1, hf2⟩ := hf
  obtain ⟨l, part, v, R⟩ := hl.resumed
  have hstart : start = q.input.span.start := by
    have := csub_some R.hstart
    simp only [if_true] at this
    rw [← hs.inp.span, hspan] at this
    omega
  have hmore := hl.more
  unfold IP.moreAttributes at hmore
  simp only [if_true] at hmore
  obtain ⟨rest, hrest, hmore⟩ := bind_ok hmore
  have e1 := (Prod.mk.inj (Except.ok.inj hmore)).1
  -- the second parser
  have hfs := fed_step (D := D) (E := E) (x := x) hc hp (by rw [← e1]) h2 h3 (by rw [← e1]; simp only; rw [hs.inp.lines.2.2.1]; exact hl.next)
  obtain ⟨y, f, g1, g2, g3⟩ := hfs
  obtain ⟨st', hw⟩ := hp.wait
  have htok : (r'.1.input.resetSpan.eat).1 = some ⟨.opn .brace, 1⟩ := eat_of_peeked (by exact hw.tok)
  have hate := hw.inp.reset.eat_some hc htok
  have hsp1 : r'.1.input.span = ⟨start, start⟩ := by rw [← e1]
  have hsl1 : r'.1.input.spanLine = q.input.spanLine := by rw [← e1]
  have hah1 : r'.1.input.ahead = q.input.ahead := by rw [← e1]
  have hsp2 : (r'.1.input.resetSpan.eat).2.span = ⟨start, start + 1⟩ := by
    rw [hate.span]
    show (⟨r'.1.input.span.stop, r'.1.input.span.stop + 1⟩ : Span) = _
    rw [hsp1]
  have hlx1 : r'.1.input.resetSpan.lexer = Lex.Lexer.new rest := by rw [← e1]; rfl
  have hspq : q.input.span = ⟨start, start + 1⟩ := by
    rw [hstart, ← hspan]
  -- lexers
  have hlex : Lex.LexEq q.input.lexer (r'.1.input.resetSpan.eat).2.lexer := by
    refine rem_eq hrem ?_ hnx (hate.next (by simp)) ?_ ?_
    · have := hate.inp.rem
      rw [hsp2, hate.line] at this
      rw [hspq]
      rw [show r'.1.input.resetSpan.spanLine = q.input.spanLine from hsl1] at this
      exact this
    · rw [hesc, eat_eq]
      have := (Lex.nextTok_esc r'.1.input.resetSpan.lexer hw.inp.rem.esc).1 _ hw.tok (by simp)
      exact (this.1 (by simp)).symm
    · rw [eat_eq]
      show _ = (r'.1.input.resetSpan.lexer.nextTok).2.verbatim
      rw [nextTok_verb, hlx1, ← hs.inp.lex.verb, hs.vf hv]
      rfl
  have hlex2 : Lex.LexEq p.input.lexer (r'.1.input.resetSpan.eat).2.lexer :=
    ⟨by rw [hs.inp.lex.rest, hlex.rest], by rw [hs.inp.lex.tail, hlex.tail], by rw [hs.inp.lex.next, hlex.next], by rw [hs.inp.lex.escape, hlex.escape], by rw [hs.inp.lex.verb, hlex.verb]⟩
  have hsrc2 : (r'.1.input.resetSpan.eat).2.src = q.input.src := by rw [eat_eq, ← e1]; rfl
  have S : Sim D E .post { p with attributes := none }
      { r'.1 with attributes := none, input := { (r'.1.input.resetSpan.eat).2 with complete := true, ahead := r'.1.input.ahead ++ [⟨E, E⟩] } } := by
    refine ⟨⟨?_, ?_, hlex2, ?_⟩, ?_, ?_, ?_, rfl, ?_, ?_, hs.vf⟩
    · exact hsrc2.trans hs.inp.src
    · show (r'.1.input.resetSpan.eat).2.span = p.input.span
      rw [hsp2, ← hs.inp.span, hspq]
    · refine hs.inp.lines.fed rfl (by simp only [hah1]) ?_
      show (r'.1.input.resetSpan.eat).2.spanLine = _
      rw [hate.line]; exact hsl1
    · show r'.1.openers = _; rw [← e1]; exact hs.openers
    · show r'.1.events = _; rw [← e1]; exact hs.events
    · show r'.1.verbatim = _; rw [← e1]; exact hs.verbatim
    · show r'.1.storeCowstrs.length = _; rw [← e1]; exact hs.cow
    · show r'.1.storeAttributes = _; rw [← e1]; exact hs.attrs
  have hvl : x.state.validLines ≤ p.input.ahead.length := by
    have h5 := hw.valid
    have h6 := hw.attr
    rw [← e1] at h6
    have h6 := Option.some.inj h6
    rw [← h6, hah1, hs.inp.lines.2.2.1] at h5
    exact h5
  rw [show r'.1.input.span.stop = start by rw [hsp1]] at g1
  have hfin := finish_later S rfl rfl rfl rfl rfl (x := x) (start := start) hl.next hl.stop hvl (by simp only [hah1]; rw [hs.inp.lines.2.2.1]) hl.fin g1
  rcases hfin with ⟨he, hsame, hcont⟩ | ⟨he, rfl, rfl⟩
  · have k1 := orElse_rest hcont hf1
    have k2 := orElse_rest (by rw [hsame.flow, hcont]) g2
    subst k1 k2 hf2 g3
    exact tokEnd_sim hsame
  · subst ht
    have k := (rest_sim hD S rfl (orElse_rest_none hf1) (orElse_rest_none g2)).post
    subst hf2 g3
    exact tokEnd_sim k

/-- Attributes of a word fail like those of an element. -/
theorem resume_word {p0 p1 : IP} {ty : ElemTy} {start : Nat} {res y : IP × Option Flow} {l : Nat × Nat × Nat} {part : Bytes} {v : Option Nat × Attr.State} {x : AttrScan}
    (R : Resumed p0 ⟨ty, start, 0, .start⟩ false true res start l part v (x, false)) (he : start = x.state.endAttr) (hsrc : p1.input.src = p0.input.src)
    (hcp : p1.input.complete = p0.input.complete) (hah : p1.input.ahead = p0.input.ahead) (hsl : p1.input.spanLine = p0.input.spanLine)
    (hst : csub p1.input.span.stop 1 = .ok start) (h : p1.resumeAttributes ⟨.word, start, 0, .start⟩ true true = .ok y) : y = (p1, none) := by
  obtain ⟨start', l', part', v', x', R'⟩ := resumed h
  have h1 : start' = start := by have := R'.hstart; simp only [if_true] at this; rw [hst] at this; cases this; rfl
  subst h1
  have h2 : l' = l := by
    have a := R.line
    have b := R'.line
    unfold Input.attrStartLine at a b
    simp only [if_true] at a b
    rw [hsl] at b
    rw [a] at b
    cases b; rfl
  subst h2
  have h3 : part' = part := by
    have a := R.hpart
    have b := R'.hpart
    rw [hsrc, a] at b
    cases b; rfl
  subst h3
  have h4 : v' = v := by
    have a := R.valid
    have b := R'.valid
    simp only at a b
    rw [a] at b
    cases b; rfl
  subst h4
  have h5 := attrLoop_ty _ _ _ .word _ _ _ _ _ R.loop
  have h6 := R'.loop
  rw [hsrc, hah, hcp] at h6
  have h7 : x' = (x.ty .word, false) := by
    have := h5.symm.trans h6
    exact (Except.ok.inj this).symm
  subst h7
  have h8 := R'.res
  simp only [Bool.false_eq_true, if_false] at h8
  rw [finish_none (by exact he)] at h8
  cases h8; rfl

theorem later_lag (hD : Closed D) (hc : c.Ok) {r r' : IP × Flow} (hp : Pending c r'.1) (hl : Lag D E (r.1, some r.2) (r'.1, some r'.2)) {q2 : IP} {r3 : IP × Flow}
    (h2 : r'.1.feedLine ⟨E, E⟩ true = .ok q2) (h3 : q2.parseEvent = .ok r3) :
    (r3.2 = r.2 ∧ Sim D E .post r.1 r3.1) ∨ (r.2 = .cont ∧ ∀ rp, r.1.parseEvent = .ok rp → r3.2 = rp.2 ∧ Sim D E .post rp.1 r3.1) := by
  obtain ⟨p0, q0, ty, start, x, f, hs, hat, hl, hr2⟩ := hl.ex
  have hr2 : r.2 = f.getD .cont := Option.some.inj hr2
  obtain ⟨l, part, v, R⟩ := hl.resumed
  have hstart : start = p0.input.span.stop := by
    have := csub_some R.hstart
    simp at this
    exact this
  have hmore := hl.more
  unfold IP.moreAttributes at hmore
  simp only [Bool.false_eq_true, if_false] at hmore
  have e1 : { q0 with attributes := some (x.state.shift D.length) } = r'.1 := (Prod.mk.inj (Except.ok.inj hmore)).1
  have hi1 : r'.1.input = q0.input := by rw [← e1]
  obtain ⟨y, g, g1, g2, g3⟩ := fed_step (D := D) (E := E) (x := x) hc hp (by rw [← e1]) h2 h3 (by rw [hi1, hs.inp.lines.2.2.1]; exact hl.next)
  obtain ⟨st', hw⟩ := hp.wait
  have htok : (q0.input.resetSpan.eat).1 = some ⟨.opn .brace, 1⟩ := eat_of_peeked (by have := hw.tok; rw [hi1] at this; exact this)
  have hinp := hs.inp.resetSpan.eat
  have htokp : (p0.input.resetSpan.eat).1 = some ⟨.opn .brace, 1⟩ := by rw [← hinp.1]; exact htok
  have hv : p0.verbatim = none := by
    have := hw.verb
    rw [← e1] at this
    exact hs.verb_iff.1 this
  rw [hi1] at g1
  have S : Sim D E .post { p0 with input := (p0.input.resetSpan.eat).2 }
      { r'.1 with attributes := none, input := { (q0.input.resetSpan.eat).2 with complete := true, ahead := q0.input.ahead ++ [⟨E, E⟩] } } := by
    refine ⟨⟨hinp.2.src, hinp.2.span, hinp.2.lex, ?_⟩, ?_, ?_, ?_, ?_, ?_, ?_, fun _ => ?_⟩
    · exact hinp.2.lines.fed rfl (by rw [eat_eq]; rfl) rfl
    · show r'.1.openers = _; rw [← e1]; exact hs.openers
    · show r'.1.events = _; rw [← e1]; exact hs.events
    · show r'.1.verbatim = _; rw [← e1]; exact hs.verbatim
    · show none = p0.attributes.map _; rw [hat]; rfl
    · show r'.1.storeCowstrs.length = _; rw [← e1]; exact hs.cow
    · show r'.1.storeAttributes = _; rw [← e1]; exact hs.attrs
    · show (p0.input.resetSpan.eat).2.lexer.verbatim = false
      rw [eat_verb]; exact hs.vf hv
  have hvl : x.state.validLines ≤ p0.input.ahead.length := by
    have h5 := hw.valid
    have h6 := hw.attr
    rw [← e1] at h6
    have h6 := Option.some.inj h6
    rw [← h6, hi1, hs.inp.lines.2.2.1] at h5
    exact h5
  have hsp : q0.input.span.stop = start := by rw [hs.inp.span, hstart]
  rw [hsp] at g1
  have hpe : (p0.input.resetSpan.eat).2.src = p0.input.src ∧ (p0.input.resetSpan.eat).2.complete = p0.input.complete ∧ (p0.input.resetSpan.eat).2.ahead = p0.input.ahead ∧
      (p0.input.resetSpan.eat).2.spanLine = p0.input.spanLine := by rw [eat_eq]; exact ⟨rfl, rfl, rfl, rfl⟩
  have hspe : (p0.input.resetSpan.eat).2.span.stop = start + 1 := by
    have h9 : p0.input.resetSpan.eat.1 = p0.input.resetSpan.lexer.nextTok.1 := by rw [eat_eq]
    rw [eat_eq]
    rw [h9] at htokp
    simp only [htokp]
    rw [hstart]; rfl
  have hfin := finish_later (p0 := p0) S rfl hpe.1 hpe.2.1 hpe.2.2.1 hpe.2.2.2 (x := x) (start := start) hl.next hl.stop hvl (by simp only; rw [hs.inp.lines.2.2.1]) hl.fin g1
  rcases hfin with ⟨he, hsame, hcont⟩ | ⟨he, k1, rfl⟩
  · left
    have k2 := orElse_rest (by rw [hsame.flow, hcont]) g2
    subst k2
    have hcont : f = some .cont := hcont
    have hfl := hsame.flow
    have hsim := hsame.sim
    simp only at hfl hsim
    subst g3
    have e3 : tokEnd g = (g.1, .cont) := by unfold tokEnd; rw [hfl, hcont]
    rw [e3, hr2, hcont]
    exact ⟨rfl, hsim⟩
  · right
    have k1 := Prod.mk.inj k1
    obtain ⟨k1, k2⟩ := k1
    refine ⟨by rw [hr2, k2]; rfl, ?_⟩
    intro rp hrp
    rw [k1] at hrp
    unfold IP.parseEvent at hrp
    rw [htokp] at hrp
    simp only at hrp
    rw [parseToken_eq] at hrp
    replace hrp := bind_ok hrp
    obtain ⟨h, hrp, gp⟩ := hrp
    cases gp
    rw [verbatim_brace (by exact hv) rfl] at hrp
    have hrp : orElse (IP.parseAttributes { p0 with input := (p0.input.resetSpan.eat).2 } ⟨.opn .brace, 1⟩) (fun p => p.restToken ⟨.opn .brace, 1⟩) = .ok h := hrp
    obtain ⟨z, hz, hz2⟩ := orElse_inv hrp
    unfold IP.parseAttributes at hz
    rw [if_pos rfl] at hz
    simp only [hat] at hz
    unfold IP.aheadAttributes at hz
    simp only [if_true] at hz
    replace hz := bind_ok hz
    obtain ⟨e, he1, hz⟩ := hz
    have he2 : e = start := by have := csub_some he1; simp only [hspe] at this; omega
    subst he2
    have := resume_word R he hpe.1 hpe.2.1 hpe.2.2.1 hpe.2.2.2 (by simp only [hspe]; exact csub_ok (by omega)) hz
    subst this
    rcases hz2 with ⟨rfl, fl, hz2⟩ | ⟨_, hz2⟩
    · cases hz2
    simp only [hat] at S
    have k := (rest_sim hD S rfl hz2 (orElse_rest_none g2)).post
    subst g3
    exact tokEnd_sim k

/-- A step of parsers that read the same text. -/
theorem step_sim (hD : Closed D) (hc : c.Ok) {p q : IP} {r r' : IP × Flow} (h : Sim D E m p q) (hq : Alive c q) (hpost : m = .post → Live c q)
    (h1 : p.parseEvent = .ok r) (h2 : q.parseEvent = .ok r') : StepOut D E m r r' := by
  have hev := (hq.event hc).of_ok h2
  unfold IP.parseEvent at h1 h2
  have hinp := h.inp.resetSpan.eat
  rw [hinp.1] at h2
  cases ht : (p.input.resetSpan.eat).1 with
  | none =>
    rw [ht] at h1 h2
    simp only at h1 h2
    have hs : Sim D E m { p with input := (p.input.resetSpan.eat).2 } { q with input := (q.input.resetSpan.eat).2 } :=
      h.input hinp.2 (fun hv => by rw [eat_verb]; exact h.vf hv)
    have hpa : (p.input.resetSpan.eat).2.ahead = p.input.ahead := by rw [eat_eq]; rfl
    cases h1; cases h2
    have hl := h.inp.lines
    cases m with
    | same =>
      refine .same ?_ hs
      have : q.input.last = p.input.last := by unfold Input.last; rw [hl.1, hl.2.1]
      simp only [this]
    | pre =>
      have hq : q.input.last = false := by unfold Input.last; rw [hl.2.1]; rfl
      by_cases ha : p.input.ahead = []
      · have hp : p.input.last = true := last_eq.2 ⟨hl.1, ha⟩
        refine .ends ?_ ?_ hs (hpa.trans ha) (by simp)
        · simp only [hp, if_true]
        · simp only [hq, Bool.false_eq_true, if_false]
      · have hp : p.input.last = false := by
          cases hx : p.input.last with
          | false => rfl
          | true => exact absurd (last_eq.1 hx).2 ha
        refine .same ?_ hs
        simp only [hp, hq]
    | post =>
      obtain ⟨l1, l2, l3, l4⟩ := hl
      by_cases ha : p.input.ahead = []
      · have hp : p.input.last = true := last_eq.2 ⟨l1, ha⟩
        rcases l4 with ⟨l4, _⟩ | ⟨l4, _, _⟩
        · have hq : q.input.last = false := by
            cases hx : q.input.last with
            | false => rfl
            | true => have := (last_eq.1 hx).2; rw [l4] at this; simp at this
          refine .ends ?_ ?_ hs (hpa.trans ha) (by simp)
          · simp only [hp, if_true]
          · simp only [hq, Bool.false_eq_true, if_false]
        · have hq : q.input.last = true := last_eq.2 ⟨l2, l4⟩
          refine .same ?_ hs
          simp only [hp, hq]
      · have hp : p.input.last = false := by
          cases hx : p.input.last with
          | false => rfl
          | true => exact absurd (last_eq.1 hx).2 ha
        rcases l4 with ⟨l4, _⟩ | ⟨_, l4, _⟩
        · have hq : q.input.last = false := by
            cases hx : q.input.last with
            | false => rfl
            | true => have := (last_eq.1 hx).2; rw [l4] at this; simp at this
          refine .same ?_ hs
          simp only [hp, hq]
        · exact absurd l4 ha
  | some t =>
    rw [ht] at h1 h2
    simp only at h1 h2
    have hs : Sim D E m { p with input := (p.input.resetSpan.eat).2 } { q with input := (q.input.resetSpan.eat).2 } :=
      h.input hinp.2 (fun hv => by rw [eat_verb]; exact h.vf hv)
    have hto := parseToken_sim hD hs (fun hv => h.attr_iff.1 (hq.verb (fun hn => hv (h.verb_iff.1 hn)))) (fun hm => h.attr_iff.1 (hpost hm).attr) h1 h2
    cases hto with
    | same a b => exact .same a b
    | lag hm hl =>
      subst hm
      have hm2 := Option.some.inj hl.more
      unfold EvOut at hev
      rw [hm2] at hev
      exact .later rfl hm2 (fun q2 r3 a b => later_lag hD hc hev hl a b)
    | eat st start x f0 first hm htk hv hl hf =>
      subst hm
      have hm2 : r'.2 = .more := Option.some.inj (more_flow hl.more)
      unfold EvOut at hev
      rw [hm2] at hev
      refine .later rfl hm2 (fun q2 r3 a b => .inl ?_)
      have htq : (q.input.resetSpan.eat).1 = some t := by rw [hinp.1, ht]
      have hate := hq.inp.reset.eat_some hc htq
      have hbr := brace_len hc hate htk
      refine later_eat hD hc (t := t) hs hv hbr hate.inp.rem (hate.next (by rw [htk]; simp)) ?_ ?_ hev hl hf a b
      · show (q.input.resetSpan.eat).2.lexer.escape = false
        rw [eat_eq]
        have hn : q.input.resetSpan.lexer.nextTok.1 = some t := by rw [eat_eq] at htq; exact htq
        exact ((Lex.nextTok_esc q.input.resetSpan.lexer hq.inp.rem.esc).1 _ hn (by rw [htk]; simp)).1 (by rw [htk]; simp)
      · show (q.input.resetSpan.eat).2.span.stop = (q.input.resetSpan.eat).2.span.start + 1
        rw [hate.span, hbr]
        rfl

end Jotdown.Inline
