import Verif.Proofs.RoundEmit
/-! # Round trip: the events read from lines -/
namespace Jotdown.Round
open Jotdown Jotdown.Notation Jotdown.Lex

theorem container_ok (P : Parser) (enter : Bool) {c : Inline.Container} (h : simple P.inlineParser.storeCowstrs.length c = true) : P.inlineContainer c enter [] = .ok (outer P.inlineParser.storeCowstrs c, []) := by
  cases c with
  | inlineLink i =>
    simp only [simple, decide_eq_true_eq] at h
    simp only [Parser.inlineContainer, idx, List.getElem?_eq_getElem h, bind, Except.bind, pure, Except.pure, outer, linkTo, Option.getD_some, Bool.false_eq_true, if_false]
  | inlineImage i =>
    simp only [simple, decide_eq_true_eq] at h
    simp only [Parser.inlineContainer, idx, List.getElem?_eq_getElem h, bind, Except.bind, pure, Except.pure, outer, linkTo, Option.getD_some, if_true]
  | _ => first | rfl | (simp [simple] at h; done)

/-- What the parser reports for an event. -/
theorem inlineEvent_ok {P : Parser} {e : Inline.Event} {ev : Event} (h : Reported P.src P.inlineParser.storeCowstrs e ev) {r : Event × Attr.Attributes} (hr : P.inlineEvent e [] = .ok r) :
    r.1 = ev ∧ (e.kind = .str → e.span.stop ≤ P.src.length) := by
  obtain ⟨h1, h2, h3⟩ := h
  obtain ⟨k, sp⟩ := e
  unfold Parser.inlineEvent at hr
  cases k with
  | enter c =>
    have h1 : simple _ c = true := h1
    simp only [container_ok P true h1] at hr
    cases hr
    cases h3
    exact ⟨rfl, by simp⟩
  | exit c =>
    have h1 : simple _ c = true := h1
    simp only [container_ok P false h1] at hr
    cases hr
    cases h3
    exact ⟨rfl, by simp⟩
  | atom a => cases hr; cases h3; exact ⟨rfl, by simp⟩
  | str =>
    simp only at hr
    obtain ⟨s, h4, hr⟩ := bind_ok hr
    cases hr
    cases h3
    unfold strSlice at h4
    split at h4
    · rename_i hc
      cases h4
      exact ⟨rfl, fun _ => hc.2.1⟩
    · cases h4
  | placeholder => exact absurd rfl h2
  | attributes c i => cases h1
  | empty => cases h1

theorem inline_ok {src : Bytes} {P : Parser} (hP : P.src = src) {x : Ctx} {S : List Op} {T : List F} {Ts : List (List F)} {ls : List Span} (h : Live src P.inlineParser x S T Ts ls)
    {Q : Parser} {o : Option (Event × Span)} (hp : P.inline = .ok (Q, o)) :
    Q.src = src ∧ match o with
      | some e => ∃ x' S' T', Live src Q.inlineParser x' S' T' Ts ls ∧ total src P.inlineParser S T Ts = e.1 :: total src Q.inlineParser S' T' Ts
      | none => ∃ x' S', Live src Q.inlineParser x' S' [] Ts ls ∧ total src Q.inlineParser S' [] Ts = total src P.inlineParser S T Ts ∧ (ls = [] → total src Q.inlineParser S' [] Ts = []) := by
  unfold Parser.inline at hp
  obtain ⟨⟨ip, next⟩, h1, hp⟩ := bind_ok hp
  have hn := next_ok _ h h1
  cases next with
  | none => cases hp; exact ⟨hP, hn⟩
  | some e =>
    obtain ⟨x', S', T', ev, g1, g2, g3⟩ := hn
    have hna : ∀ b i, e.kind ≠ .attributes b i := by
      intro b i hk
      have := g2.kind
      rw [hk] at this
      cases this
    have key : ∀ {r}, Parser.inlineEvent { P with inlineParser := ip } e [] = .ok r → Q = { P with inlineParser := ip } → o = some (r.1, e.span) →
        Q.src = src ∧ match o with
          | some e => ∃ x' S' T', Live src Q.inlineParser x' S' T' Ts ls ∧ total src P.inlineParser S T Ts = e.1 :: total src Q.inlineParser S' T' Ts
          | none => ∃ x' S', Live src Q.inlineParser x' S' [] Ts ls ∧ total src Q.inlineParser S' [] Ts = total src P.inlineParser S T Ts ∧ (ls = [] → total src Q.inlineParser S' [] Ts = []) := by
      intro r hr hQ ho
      subst hQ ho
      have g2' : Reported ({ P with inlineParser := ip } : Parser).src ip.storeCowstrs e ev := by rw [show ({ P with inlineParser := ip } : Parser).src = src from hP]; exact g2
      obtain ⟨h5, h6⟩ := inlineEvent_ok g2' hr
      refine ⟨hP, x', S', T', g1, ?_⟩
      rw [g3 (fun hk => by have := h6 hk; rw [← hP]; exact this)]
      simp only [h5]
    simp only at hp
    obtain ⟨⟨r1, r2⟩, h2, hp⟩ := bind_ok hp
    obtain ⟨_, _, hp⟩ := bind_ok hp
    cases hp
    exact key h2 rfl rfl

theorem reads_ok {src : Bytes} {P Q : Parser} {es : List (Event × Span)} (hr : Reads P es Q) (hP : P.src = src) {x : Ctx} {S : List Op} {T : List F} {Ts : List (List F)} {ls : List Span}
    (h : Live src P.inlineParser x S T Ts ls) :
    Q.src = src ∧ ∃ x' S', Live src Q.inlineParser x' S' [] Ts ls ∧ total src P.inlineParser S T Ts = es.map (·.1) ++ total src Q.inlineParser S' [] Ts ∧
      (ls = [] → total src Q.inlineParser S' [] Ts = []) := by
  induction hr generalizing x S T with
  | none h1 =>
    obtain ⟨h2, x', S', g1, g2, g3⟩ := inline_ok hP h h1
    exact ⟨h2, x', S', g1, by rw [g2]; rfl, g3⟩
  | some h1 _ ih =>
    obtain ⟨h2, x', S', T', g1, g2⟩ := inline_ok hP h h1
    obtain ⟨h3, x'', S'', k1, k2, k3⟩ := ih h2 g1
    exact ⟨h3, x'', S'', k1, by rw [g2, k2]; rfl, k3⟩

theorem feed_ok {src : Bytes} {p ip : Inline.IP} {S : List Op} {x : Ctx} {t : List F} {Ts : List (List F)} {l : Span} {ls : List Span} (h : Live src p x S [] (t :: Ts) (l :: ls))
    (hf : p.feedLine l ls.isEmpty = .ok ip) : Live src ip .bol S t Ts ls ∧ total src ip S t Ts = total src p S [] (t :: Ts) := by
  obtain ⟨_, rfl⟩ : ([] : List F) = [] ∧ x = .bol := by
    rcases h.br (by simp) with hb | hb
    · exact hb
    · obtain ⟨_, hb⟩ := hb; simp at hb
  unfold Inline.IP.feedLine at hf
  obtain ⟨i, h1, hf⟩ := bind_ok hf
  cases hf
  unfold Inline.Input.feedLine at h1
  obtain ⟨_, _, h1⟩ := bind_ok h1
  obtain ⟨a, h2, h1⟩ := bind_ok h1
  have ha : a.isEmpty = true := by
    have hl := h.lex
    obtain ⟨_, ⟨k1, k2, k3⟩ | ⟨t', e', _, k2, _⟩⟩ := hl
    · unfold Lexer.ahead at h2
      obtain ⟨n, h3, h2⟩ := bind_ok h2
      have hn : n = p.input.lexer.pos := by
        simp only [Lexer.nextLen, k1] at h3
        unfold csub at h3
        split at h3
        · cases h3; rfl
        · cases h3
      subst hn
      unfold byteSlice at h2
      split at h2
      · cases h2
        have : p.input.lexer.src.drop p.input.lexer.pos = [] := k3
        rw [this, List.take_nil]; rfl
      · cases h2
    · rw [fprint_nil, tokenAt_nil] at k2; cases k2
  rw [if_pos ha] at h1
  have hah : p.input.ahead = [] := h.ahead
  simp only [hah] at h1
  unfold Inline.Input.setCurrentLine at h1
  obtain ⟨s, h3, h1⟩ := bind_ok h1
  cases h1
  have hlines := h.lines
  simp only [List.map_cons, List.cons.injEq] at hlines
  have hs : s = fprint t := by
    unfold byteSlice at h3
    split at h3
    · cases h3
      rw [← hlines.1, ← h.hsrc]; rfl
    · cases h3
  subst hs
  refine ⟨⟨h.hsrc, h.attr, rfl, rfl, At.new _, ?_, by simp, by simp [Ctx.tight], by simp, Nat.le_refl _, h.ops, h.opi, h.opx, h.verb, ?_, h.dol, ?_, hlines.2, ?_, ?_, h.bol, by simp, by simp, by simp⟩, ?_⟩
  · refine ⟨(src.drop l.start).drop (l.stop - l.start), ?_⟩
    rw [← hlines.1]
    exact (List.take_append_drop _ _).symm
  · refine ⟨h.q.kinds, h.q.spans, h.q.glued, ?_, h.q.noph⟩
    intro e he hs
    rw [h.bol rfl e he] at hs
    cases hs
  · have := h.wf
    simpa using this
  · intro hne
    right
    refine h.brs t ?_
    cases Ts with
    | nil => exact absurd rfl hne
    | cons y Ts => simp
  · intro y hy
    refine h.brs y ?_
    cases Ts with
    | nil => simp at hy
    | cons z Ts => rw [List.dropLast_cons_of_ne_nil (by simp)]; exact List.mem_cons_of_mem _ hy
  · have hvn : p.verbatim = none := h.verb
    refine Eq.trans (total_none (by exact hvn) ?_) (Eq.trans ?_ (total_none hvn (okF_notMath h.wf (by simp))).symm)
    · have := h.wf
      rw [List.nil_append, List.flatten_cons] at this
      exact okF_notMath this (by simp)
    simp

theorem lines_ok {src : Bytes} {P : Parser} {ls : List Span} {es : List (Event × Span)} (hr : ReadsLines P ls es) (hP : P.src = src) {x : Ctx} {S : List Op} {Ts : List (List F)}
    (h : Live src P.inlineParser x S [] Ts ls) (hne : ls = [] → total src P.inlineParser S [] Ts = []) : es.map (·.1) = total src P.inlineParser S [] Ts := by
  induction hr generalizing x S Ts with
  | nil => rw [hne rfl]; rfl
  | cons hf hrd _ ih =>
    cases Ts with
    | nil => have := h.lines; simp at this
    | cons t Ts =>
      obtain ⟨g1, g2⟩ := feed_ok h hf
      obtain ⟨k1, x', S', k2, k3, k4⟩ := reads_ok hrd (by exact hP) g1
      have := ih k1 k2 k4
      rw [List.map_append, this, ← g2]
      exact k3.symm

/-- Lines of pieces are read as their events. -/
theorem read_ok {src : Bytes} {pre : PrePass} {ls : List Span} {es : List (Event × Span)} {Ts : List (List F)} (hr : ReadsLines (freshParser src pre) ls es) (hne : ls ≠ [])
    (hl : ls.map (textAt src) = Ts.map fprint) (wf : okF .bol [] Ts.flatten) (brs : ∀ t ∈ Ts.dropLast, EndsNl t) : es.map (·.1) = joined (fraw Ts.flatten) := by
  have h : Live src (Inline.IP.new src) .bol [] [] Ts ls := by
    refine ⟨rfl, rfl, rfl, ?_, At.new _, ⟨src, rfl⟩, by simp, by simp [Ctx.tight], by simp, Nat.le_refl _, rfl, ?_, ?_, rfl, QOk.nil _ _, ?_, wf, hl, fun _ => .inl ⟨rfl, rfl⟩, brs, ?_, by simp, by simp, by simp⟩
    · cases ls with
      | nil => exact absurd rfl hne
      | cons l ls => rfl
    · intro o ho; cases ho
    · intro _ o ho; cases ho
    · intro e he; cases he
    · intro _ e he; cases he
  exact lines_ok hr rfl h (fun h => absurd h hne)

end Jotdown.Round
