import Verif.Proofs.SimEnd
import Verif.Proofs.HeadingTie
/-! # The events of lines with and without an empty line at the end -/
namespace Jotdown.Inline
open Jotdown
open Jotdown.Block
open Jotdown.Notation

variable {E : Nat} {c : Cx} {src : Bytes}

/-- The last line is given with and without telling that it is the last. -/
theorem feed_last {w p q : IP} {l : Span} (hs : Sim [] 0 .same w w) (hw : Starved c w ∨ Pending c w) (h1 : w.feedLine l true = .ok p) (h2 : w.feedLine l false = .ok q) :
    Sim [] l.stop .pre p q := by
  rcases hw with hw | hw
  · obtain ⟨s, a1, rfl⟩ := starved_feed hw h1
    obtain ⟨s', a2, rfl⟩ := starved_feed hw h2
    rw [a1] at a2
    cases a2
    exact ⟨⟨rfl, rfl, .refl _, rfl, rfl, rfl, rfl, rfl⟩, hs.openers, hs.events, hs.verbatim, hs.attributes, rfl, rfl, fun _ => rfl⟩
  · have e1 := pending_feed hw h1
    have e2 := pending_feed hw h2
    subst e1 e2
    refine ⟨⟨rfl, rfl, .refl _, rfl, rfl, rfl, rfl, ?_⟩, hs.openers, hs.events, hs.verbatim, hs.attributes, rfl, rfl, hs.vf⟩
    simp [Input.lastStop]

theorem run_lazy {f g : IP} : ∀ (n : Nat) {n' : Nat} {c : Cx} {ls : List Span} {w : IP}, (ls.getLast?.map (·.stop)) = some E → Going src c (ls ++ [⟨E, E⟩]) w →
    Sim [] 0 .same w w → Lazy n ls w f → Lazy n' (ls ++ [⟨E, E⟩]) w g → f.events = g.events := by
  intro n
  induction n with
  | zero => intro _ _ _ _ _ _ _ h; exact h.elim
  | succ n ih =>
    intro n' c ls w hE hw hs h1 h2
    cases n' with
    | zero => exact h2.elim
    | succ n' =>
      obtain ⟨⟨r, fl⟩, a1, a2⟩ := h1
      obtain ⟨r', b1, b2⟩ := h2
      rw [a1] at b1
      cases b1
      have hev := (hw.alive.event hw.ok).of_ok a1
      obtain ⟨w', c1, -, c3⟩ := step_same closed_nil hs hw a1
      rw [a1] at c1
      cases c1
      simp only at c3
      -- feeding
      have feed : ∀ {l : Span} {ls' : List Span} {p q : IP}, (fl = .more ∨ fl = .next ∧ r.input.ahead = []) → ls = l :: ls' → r.feedLine l ls'.isEmpty = .ok p → Lazy n ls' p f →
          r.feedLine l (ls' ++ [(⟨E, E⟩ : Span)]).isEmpty = .ok q → Lazy n' (ls' ++ [⟨E, E⟩]) q g → f.events = g.events := by
        intro l ls' p q hf he x1 x2 y1 y2
        subst he
        rw [List.cons_append] at hw
        obtain ⟨q', c', d1, d2⟩ := hw.feed hev hf
        rw [y1] at d1
        cases d1
        cases ls' with
        | nil =>
          simp only [List.getLast?_singleton, Option.map_some, Option.some.injEq] at hE
          subst hE
          refine pre_lazy n d2 (feed_last (c := c) c3 ?_ x1 y1) x2 y2
          rcases hf with rfl | ⟨rfl, ha⟩
          · exact .inr hev
          · exact .inl (next_starved hw.alive hev ha)
        | cons l2 ls2 =>
          simp only [List.isEmpty_cons, List.cons_append] at x1 y1
          rw [x1] at y1
          cases y1
          exact ih (by rw [List.getLast?_cons_cons] at hE; exact hE) d2 (feedLine_sim c3 x1 x1) x2 y2
      cases fl with
      | cont => exact ih hE (hw.cont hev) c3 a2 b2
      | done =>
        obtain ⟨h0, _⟩ := a2
        subst h0
        cases hE
      | more =>
        obtain ⟨l, ls', p, d1, d2, d3⟩ := a2
        obtain ⟨l', ls'', q, e1, e2, e3⟩ := b2
        subst d1
        rw [List.cons_append] at e1
        cases e1
        exact feed (.inl rfl) rfl d2 d3 e2 e3
      | next =>
        rcases a2 with ⟨l, rest, p', d1, d2, d3⟩ | ⟨d0, l, ls', p, d1, d2, d3⟩
        · rcases b2 with ⟨l', rest', q', e1, e2, e3⟩ | ⟨e0, _⟩
          · simp only at d1 d2 e1 e2
            rw [d1] at e1
            cases e1
            rw [d2] at e2
            cases e2
            obtain ⟨q'', k1, k2, -⟩ := hw.next hev d1
            rw [d2] at k1
            cases k1
            exact ih hE k2 (nextLine_sim c3 d2 d2) d3 e3
          · simp only at d1 e0
            rw [d1] at e0; cases e0
        · rcases b2 with ⟨l', rest', q', e1, e2, e3⟩ | ⟨e0, l', ls'', q, e1, e2, e3⟩
          · simp only at d0 e1
            rw [d0] at e1; cases e1
          · subst d1
            rw [List.cons_append] at e1
            cases e1
            exact feed (.inr ⟨rfl, d0⟩) rfl d2 d3 e2 e3

theorem chain_lines {lo hi : Nat} {inl : List Block.Event} (h : InlChain src true lo inl hi) {tl : List Span}
    (ht : LinesFrom src (((inl.map (·.span)).getLast?.map (·.stop)).getD lo) false tl) : LinesFrom src lo (!inl.isEmpty) (inl.map (·.span) ++ tl) := by
  induction h with
  | nil => exact ht
  | @cons lo hi e es h1 h2 h3 h4 h5 ih =>
    have ih' := ih (by
      cases es with
      | nil => exact ht
      | cons a b =>
        simp only [List.map_cons, List.getLast?_cons_cons] at ht ⊢
        cases hg : (a.span :: b.map (·.span)).getLast? with
        | none => simp at hg
        | some z => rw [hg] at ht; exact ht)
    refine .cons h2 h3 (fun _ => rfl) ?_ ih'
    intro hm
    refine ⟨rfl, ?_⟩
    rcases h4 rfl with h | h
    · subst h; cases hm
    · exact h

/-- The parser was given its first line. -/
theorem first_line (hu : Safe src) (hb : Bd src) {l : Span} {ls : List Span} {more : Bool} (hl : SpanOk src l) (hm : more = true → NlStop src l.stop)
    (hls : LinesFrom src l.stop more ls) : ∃ p c, (IP.new src).feedLine l ls.isEmpty = .ok p ∧ Going src c ls p ∧ Sim [] 0 .same p p ∧
      p = { IP.new src with input := { (IP.new src).input with complete := ls.isEmpty, lexer := Lex.Lexer.new (sliceOf src l), span := ⟨l.start, l.start⟩, spanLine := l } } := by
  have hn := Idle.new src
  let c : Cx := ⟨src, l.stop, 0, 3 * src.length, ls.isEmpty, more, 0, 0⟩
  have hc : c.Ok := ⟨hu, hb, hl.len⟩
  obtain ⟨p, h1, h2⟩ := (Idle.feed (c := c) hn hu hl rfl (Nat.zero_le _) hm (Nat.le_refl _)).exists_ok
  have h6 := feedLine_empty hn.rest.src_eq hn.cpl hn.rest.rem hn.rest.ahead hl ls.isEmpty
  have h7 : (IP.new src).feedLine l ls.isEmpty = .ok p := h1
  have h8 := h7
  unfold IP.feedLine at h7
  rw [h6] at h7
  simp only [Bind.bind, Except.bind, Pure.pure, Except.pure, Except.ok.injEq] at h7
  refine ⟨p, c, h8, ⟨hc, rfl, .inl h2, rfl, hls⟩, ?_, h7.symm⟩
  rw [← h7]
  exact ⟨⟨rfl, rfl, .refl _, rfl, rfl, rfl⟩, rfl, rfl, rfl, rfl, rfl, rfl, fun _ => rfl⟩

theorem Eager.run {ls : List Span} {p : IP} {es : List Event} (he : Eager ls p es) (hs : Sim [] 0 .same p p) (hw : Going src c ls p) :
    ∃ n f, Lazy n ls p f ∧ Emits src f.events es := by
  obtain ⟨n, f, X, h1, h2, h3⟩ := he.lazy hs closed_nil hw
  exact ⟨n, f, h1, by rw [h2]; exact h3⟩

/-- The empty line after the last line changes nothing. -/
theorem drains_eps (hu : Safe src) (hb : Bd src) {lo hi : Nat} {inl : List Block.Event} (hch : InlChain src true lo inl hi) {es es' : List Event}
    (h1 : DrainsLines (IP.new src) (inl.map (·.span)) es) (h2 : DrainsLines (IP.new src) (inl.map (·.span) ++ [emptyLine (inl.map (·.span))]) es') : es = es' := by
  cases hch with
  | nil =>
    cases h1
    have hl : SpanOk src ⟨0, 0⟩ := .empty (Nat.zero_le _) (by simpa using hb)
    have hr := drainsLines_run h2
    cases hr with
    | feed a1 a2 =>
      obtain ⟨p, c, b1, b2, b3, b4⟩ := first_line hu hb (ls := []) (more := false) hl (by simp) .nil
      have a1 : (IP.new src).feedLine ⟨0, 0⟩ true = _ := a1
      have b1 : (IP.new src).feedLine ⟨0, 0⟩ true = _ := b1
      rw [a1] at b1
      cases b1
      obtain ⟨n, f, c1, c2⟩ := a2.run b3 b2
      obtain ⟨q', d1, d2, d3, -⟩ := eps_lazy (E := 0) (by rw [b4]) (by rw [b4]; simp [sliceOf]) (by rw [b4]; rfl) c1
      rw [b4] at d2 d3
      rw [autoClose_none d2] at d1
      cases d1
      rw [d3] at c2
      cases c2
      rfl
  | @cons _ _ e inl k1 k2 k3 k4 k5 =>
    have hE : ∃ E, ((e :: inl).map (·.span)).getLast?.map (·.stop) = some E := by
      cases hg : ((e :: inl).map (·.span)).getLast? with
      | none => simp at hg
      | some z => exact ⟨_, rfl⟩
    obtain ⟨E, hE⟩ := hE
    have heps : emptyLine ((e :: inl).map (·.span)) = ⟨E, E⟩ := by unfold emptyLine; rw [hE]; rfl
    have hE2 : ((inl.map (·.span)).getLast?.map (·.stop)).getD e.span.stop = E := by
      cases inl with
      | nil => simpa using hE
      | cons a b => simp only [List.map_cons, List.getLast?_cons_cons] at hE ⊢; rw [hE]; rfl
    have hEok : SpanOk src ⟨E, E⟩ := by
      have := lines_emptyLine hb (.cons k1 k2 k3 k4 k5) (emptyLine ((e :: inl).map (·.span))) (by simp)
      rwa [heps] at this
    rw [heps] at h2
    rw [List.map_cons] at h1 h2 hE
    have hr1 := drainsLines_run h1
    have hr2 := drainsLines_run h2
    have hmore : (!inl.isEmpty) = true → NlStop src e.span.stop := by
      intro hm
      rcases k4 rfl with h | h
      · subst h; cases hm
      · exact h
    have l1 : LinesFrom src e.span.stop (!inl.isEmpty) (inl.map (·.span) ++ []) := chain_lines k5 .nil
    have l2 : LinesFrom src e.span.stop (!inl.isEmpty) (inl.map (·.span) ++ [⟨E, E⟩]) :=
      chain_lines k5 (by rw [hE2]; exact .cons hEok (Nat.le_refl _) (fun h => by simp at h) (more' := false) (fun h => by cases h) .nil)
    rw [List.append_nil] at l1
    rw [List.cons_append] at hr2
    cases hr1 with
    | feed a1 a2 =>
    cases hr2 with
    | feed b1 b2 =>
    obtain ⟨p, c, x1, x2, x3, x4⟩ := first_line hu hb k2 hmore l1
    obtain ⟨q, d, y1, y2, y3, y4⟩ := first_line hu hb k2 hmore l2
    rw [a1] at x1
    cases x1
    rw [b1] at y1
    cases y1
    obtain ⟨n, f, u1, u2⟩ := a2.run x3 x2
    obtain ⟨n', g, v1, v2⟩ := b2.run y3 y2
    have hfg : f.events = g.events := by
      cases inl with
      | nil =>
        simp only [List.map_nil, List.nil_append, List.getLast?_singleton, Option.map_some, Option.some.injEq] at *
        subst hE
        refine pre_lazy n y2 ?_ u1 v1
        rw [x4, y4]
        exact ⟨⟨rfl, rfl, .refl _, rfl, rfl, rfl, rfl, rfl⟩, rfl, rfl, rfl, rfl, rfl, rfl, fun _ => rfl⟩
      | cons a b =>
        have hpq := x4.trans y4.symm
        rw [← hpq] at y2 y3 v1
        refine run_lazy n ?_ y2 y3 u1 v1
        simpa only [List.map_cons, List.getLast?_cons_cons] using hE
    rw [hfg] at u2
    exact u2.unique v2

end Jotdown.Inline
