import Verif.Proofs.SimLazy
/-! # The empty line after the last line changes nothing -/
namespace Jotdown.Inline
open Jotdown
open Jotdown.Block
open Jotdown.Notation

variable {E : Nat} {c : Cx} {src : Bytes}

theorem curLine_eq {i i' : Input} {l : Span} (h : i.setCurrentLine l = .ok i') :
    ∃ s, byteSlice i.src l.start l.stop = .ok s ∧ i' = { i with lexer := Lex.Lexer.new s, span := ⟨l.start, l.start⟩, spanLine := l } := by
  unfold Input.setCurrentLine at h
  replace h := bind_ok h
  obtain ⟨s, h1, g1⟩ := h
  cases g1
  exact ⟨s, h1, rfl⟩

theorem nextLine_eq {p p' : IP} {l : Span} {rest : List Span} (h : p.nextLine l rest = .ok p') :
    ∃ s, byteSlice p.input.src l.start l.stop = .ok s ∧ p' = { p with input := { p.input with ahead := rest, lexer := Lex.Lexer.new s, span := ⟨l.start, l.start⟩, spanLine := l } } := by
  unfold IP.nextLine at h
  replace h := bind_ok h
  obtain ⟨i, h1, g1⟩ := h
  obtain ⟨s, h2, h3⟩ := curLine_eq h1
  cases g1
  exact ⟨s, h2, by rw [h3]⟩

theorem starved_feed {p p' : IP} {l : Span} {b : Bool} (hs : Starved c p) (h : p.feedLine l b = .ok p') :
    ∃ s, byteSlice p.input.src l.start l.stop = .ok s ∧
      p' = { p with input := { p.input with complete := b, ahead := [], lexer := Lex.Lexer.new s, span := ⟨l.start, l.start⟩, spanLine := l } } := by
  have hrem := hs.live.inp.rem
  rw [hs.stop, slice_nil] at hrem
  unfold IP.feedLine at h
  replace h := bind_ok h
  obtain ⟨i, h, g⟩ := h
  cases g
  unfold Input.feedLine at h
  rw [hs.live.inp.cpl, hs.cpl] at h
  replace h := bind_ok h
  obtain ⟨_, _, h⟩ := h
  replace h := bind_ok h
  obtain ⟨a, ha, h⟩ := h
  have hx := hrem.ahead
  have ha : p.input.lexer.ahead = .ok a := ha
  rw [hx] at ha
  cases ha
  have hz := hs.ahead
  simp only [List.isEmpty_nil, if_true, hz] at h
  obtain ⟨s, h2, h3⟩ := curLine_eq h
  exact ⟨s, h2, by rw [h3]⟩

/-- On the empty line there is nothing to read. -/
theorem eps_lazy {n : Nat} {q g : IP} (hs : q.input.span = ⟨E, E⟩) (hx : q.input.lexer = Lex.Lexer.new []) (hl : q.input.last = true) (h : Lazy n [] q g) :
    ∃ q' : IP, q'.autoClose = .ok g ∧ q'.verbatim = q.verbatim ∧ q'.events = q.events ∧ q'.input.span = ⟨E, E⟩ := by
  cases n with
  | zero => exact h.elim
  | succ n =>
    obtain ⟨r, h1, h2⟩ := h
    have hn : q.input.resetSpan.lexer.nextTok = (none, { q.input.lexer with escape := false }) := end_nextTok (by show q.input.lexer.next = none; rw [hx]; rfl) (by show q.input.lexer.rest = []; rw [hx]; rfl)
    unfold IP.parseEvent at h1
    rw [eat_eq, hn, hl] at h1
    simp only [if_true] at h1
    cases h1
    obtain ⟨-, h3⟩ := h2
    refine ⟨_, h3, rfl, rfl, ?_⟩
    simp only [Input.resetSpan, hs]
    rfl

theorem lastStop_next {i : Input} {l : Span} {rest : List Span} {x : Lex.Lexer} {sp : Span} (ha : i.ahead = l :: rest) :
    ({ i with ahead := rest, lexer := x, span := sp, spanLine := l } : Input).lastStop = i.lastStop := by
  unfold Input.lastStop
  rw [ha]
  cases rest with
  | nil => rfl
  | cons a b =>
    rw [List.getLast?_cons_cons]
    cases hg : (a :: b).getLast? with
    | none => simp at hg
    | some z => rfl

/-- Both go on with the next line. -/
theorem nextLine_pre {p q p' q' : IP} {l : Span} {rest : List Span} (h : Sim [] E .pre p q) (ha : p.input.ahead = l :: rest)
    (h1 : p.nextLine l rest = .ok p') (h2 : q.nextLine l rest = .ok q') : Sim [] E .pre p' q' := by
  obtain ⟨s, a1, rfl⟩ := nextLine_eq h1
  obtain ⟨s', a2, rfl⟩ := nextLine_eq h2
  rw [h.inp.src, a1] at a2
  cases a2
  obtain ⟨g1, g2, g3, g4, g5⟩ := h.inp.lines
  exact h.input ⟨h.inp.src, rfl, .refl _, g1, g2, rfl, rfl, (lastStop_next ha).trans g5⟩ (fun _ => rfl)

theorem nextLine_post {p q p' q' : IP} {l : Span} {rest : List Span} (h : Sim [] E .post p q) (ha : p.input.ahead = l :: rest)
    (h1 : p.nextLine l rest = .ok p') (h2 : q.nextLine l (rest ++ [⟨E, E⟩]) = .ok q') : Sim [] E .post p' q' := by
  obtain ⟨s, a1, rfl⟩ := nextLine_eq h1
  obtain ⟨s', a2, rfl⟩ := nextLine_eq h2
  rw [h.inp.src, a1] at a2
  cases a2
  obtain ⟨g1, g2, g3, g4⟩ := h.inp.lines
  exact h.input ⟨h.inp.src, rfl, .refl _, g1, g2, (lastStop_next ha).trans g3, .inl ⟨rfl, rfl⟩⟩ (fun _ => rfl)

theorem byteSlice_self {s : Bytes} {n : Nat} {r : Bytes} (h : byteSlice s n n = .ok r) : r = [] := by
  unfold byteSlice at h
  split at h
  · cases h; simp
  · cases h

/-- The first parser is done, the second has the empty line left. -/
theorem ends_eq {m : Mode} {n : Nat} {p q q2 f g : IP} (h : Sim [] E m p q) (hm : m ≠ .same) (hend : AtEnd c q) (ha : p.input.ahead = []) (hf : p.autoClose = .ok f)
    (hq : ∃ b, q2 = { q with input := { q.input with complete := b, ahead := [], lexer := Lex.Lexer.new [], span := ⟨E, E⟩, spanLine := ⟨E, E⟩ } } ∧ b = true)
    (hg : Lazy n [] q2 g) : f.events = g.events := by
  obtain ⟨b, rfl, rfl⟩ := hq
  obtain ⟨q3, a1, a2, a3, a4⟩ := eps_lazy (E := E) rfl rfl rfl hg
  have hE : q.input.span = ⟨E, E⟩ := by
    have h1 := hend.stop
    have h2 := hend.empty
    have h3 := h.inp.lines.stop
    have h4 : p.input.lastStop = E := by
      cases m with
      | same => exact absurd rfl hm
      | pre => exact h.inp.lines.2.2.2.2
      | post => exact h.inp.lines.2.2.1
    unfold Input.lastStop at h4
    rw [ha] at h4
    have h4 : p.input.spanLine.stop = E := h4
    rw [h3, h4] at h1
    rw [h1] at h2
    cases hsp : q.input.span with
    | mk x y => rw [hsp] at h1 h2; simp only at h1 h2; rw [h1, h2]
  have := autoClose_evs (D := []) (p := p) (q := q3) (by rw [a2]; exact h.verbatim) (by rw [a3]; exact h.events) (by rw [a4, ← hE]; exact h.inp.span) hf a1
  rw [this]; rfl

/-- After the same step. -/
theorem post_after {n n' : Nat} {p q : IP × Flow} {f g q0 : IP} (hw : Going src c [] q0) (hev : EvOut c q0 q) (hfl : q.2 = p.2) (h : Sim [] E .post p.1 q.1)
    (h1 : LazyAfter (Lazy n) [] p f) (h2 : LazyAfter (Lazy n') [] q g)
    (ih : ∀ {c : Cx} {p q : IP}, Going src c [] q → Live c q → Sim [] E .post p q → Lazy n [] p f → Lazy n' [] q g → f.events = g.events) : f.events = g.events := by
  obtain ⟨p, fl⟩ := p
  obtain ⟨q, fl'⟩ := q
  simp only at hfl h
  subst hfl
  cases fl' with
  | cont =>
    have hg := hw.cont hev
    exact ih hg hev.live h h1 h2
  | done =>
    obtain ⟨-, h1⟩ := h1
    obtain ⟨-, h2⟩ := h2
    rw [autoClose_sim h h1 h2]; rfl
  | more => obtain ⟨_, _, _, h1, _⟩ := h1; cases h1
  | next =>
    rcases h1 with ⟨l, rest, p', a1, a2, a3⟩ | ⟨_, _, _, _, h1, _⟩
    · simp only at a1 a2
      obtain ⟨g1, g2, g3, ⟨g4, g5⟩ | ⟨_, g4, _⟩⟩ := h.inp.lines
      · rw [a1, List.cons_append] at g4
        rcases h2 with ⟨l', rest', q', b1, b2, b3⟩ | ⟨b1, _⟩
        · simp only at b1 b2
          rw [g4] at b1
          cases b1
          obtain ⟨q'', c1, c2, c3⟩ := hw.next hev g4
          rw [b2] at c1
          cases c1
          exact ih c2 c3 (nextLine_post h a1 a2 b2) a3 b3
        · simp only at b1
          rw [g4] at b1; cases b1
      · rw [a1] at g4; cases g4
    · cases h1

theorem post_lazy {f g : IP} : ∀ (n : Nat) {n' : Nat} {c : Cx} {p q : IP}, Going src c [] q → Live c q → Sim [] E .post p q → Lazy n [] p f → Lazy n' [] q g → f.events = g.events := by
  intro n
  induction n with
  | zero => intro _ _ _ _ _ _ _ h; exact h.elim
  | succ n ih =>
    intro n' c p q hw hl h h1 h2
    cases n' with
    | zero => exact h2.elim
    | succ n' =>
      obtain ⟨r, a1, a2⟩ := h1
      obtain ⟨r', b1, b2⟩ := h2
      have hev := (hw.alive.event hw.ok).of_ok b1
      have := step_sim (D := []) closed_nil hw.ok h hw.alive (fun _ => hl) a1 b1
      cases this with
      | same x y => exact post_after hw hev x y a2 b2 ih
      | later x => cases x
      | ends x y z w v =>
        obtain ⟨r, fl⟩ := r
        obtain ⟨r', fl'⟩ := r'
        simp only at x y z w
        subst x y
        obtain ⟨-, hf⟩ := a2
        obtain ⟨g1, g2, g3, ⟨g4, g5⟩ | ⟨g4, _⟩⟩ := z.inp.lines
        · rw [w] at g4
          rcases b2 with ⟨l', rest', q', c1, c2, c3⟩ | ⟨c1, _⟩
          · simp only at c1 c2
            rw [g4] at c1
            cases c1
            obtain ⟨s, d1, d2⟩ := nextLine_eq c2
            simp only at d1
            have := byteSlice_self d1
            subst this
            refine ends_eq z v hev.1 w hf ⟨r'.input.complete, d2, g2⟩ c3
          · simp only at c1
            rw [g4] at c1; cases c1
        · exact (hw.full hev (.inr ⟨rfl, g4⟩)).elim

theorem pre_lazy {f g : IP} : ∀ (n : Nat) {n' : Nat} {c : Cx} {p q : IP}, Going src c [⟨E, E⟩] q → Sim [] E .pre p q → Lazy n [] p f → Lazy n' [⟨E, E⟩] q g → f.events = g.events := by
  intro n
  induction n with
  | zero => intro _ _ _ _ _ _ h; exact h.elim
  | succ n ih =>
    intro n' c p q hw h h1 h2
    cases n' with
    | zero => exact h2.elim
    | succ n' =>
      obtain ⟨⟨r, fl⟩, a1, a2⟩ := h1
      obtain ⟨⟨r', fl'⟩, b1, b2⟩ := h2
      have hev := (hw.alive.event hw.ok).of_ok b1
      have := step_sim (D := []) closed_nil hw.ok h hw.alive (fun h => by cases h) a1 b1
      cases this with
      | same x y =>
        simp only at x y
        subst x
        cases fl' with
        | cont => exact ih (hw.cont hev) y a2 b2
        | done => obtain ⟨h0, _⟩ := b2; cases h0
        | more => obtain ⟨_, _, _, h0, _⟩ := a2; cases h0
        | next =>
          rcases a2 with ⟨l, rest, p', c1, c2, c3⟩ | ⟨_, _, _, _, h0, _⟩
          · simp only at c1 c2
            have hah := y.inp.lines.2.2.1
            rw [c1] at hah
            rcases b2 with ⟨l', rest', q', d1, d2, d3⟩ | ⟨d1, _⟩
            · simp only at d1 d2
              rw [hah] at d1
              cases d1
              obtain ⟨q'', e1, e2, -⟩ := hw.next hev hah
              rw [d2] at e1
              cases e1
              exact ih e2 (nextLine_pre y c1 c2 d2) c3 d3
            · simp only at d1
              rw [hah] at d1; cases d1
          · cases h0
      | ends x y z w v =>
        simp only at x y z w
        subst x y
        obtain ⟨-, hf⟩ := a2
        have hah := z.inp.lines.2.2.1
        rw [w] at hah
        rcases b2 with ⟨l', rest', q', c1, c2, c3⟩ | ⟨c1, l, ls', q2, c2, c3, c4⟩
        · simp only at c1
          rw [hah] at c1; cases c1
        · cases c2
          obtain ⟨s, d1, d2⟩ := starved_feed (next_starved hw.alive hev hah) c3
          simp only at d1
          have := byteSlice_self d1
          subst this
          exact ends_eq z v hev.1 w hf ⟨true, d2, rfl⟩ c4
      | later x y z =>
        simp only at y z
        subst y
        obtain ⟨l, ls', q2, c1, c2, c3⟩ := b2
        cases c1
        obtain ⟨q2', c', d1, d2⟩ := hw.feed hev (.inl rfl)
        simp only [List.isEmpty_nil] at c2 d1
        rw [c2] at d1
        cases d1
        cases n' with
        | zero => exact c3.elim
        | succ n' =>
          obtain ⟨r3, e1, e2⟩ := c3
          have hev2 := (d2.alive.event d2.ok).of_ok e1
          rcases z q2 r3 c2 e1 with ⟨k1, k2⟩ | ⟨k1, k2⟩
          · exact post_after d2 hev2 k1 k2 a2 e2 (post_lazy n)
          · subst k1
            cases n with
            | zero => exact a2.elim
            | succ n =>
              obtain ⟨rp, l1, l2⟩ := a2
              obtain ⟨m1, m2⟩ := k2 rp l1
              exact post_after d2 hev2 m1 m2 l2 e2 (post_lazy n)

end Jotdown.Inline
