import Verif.Proofs.RoundDelim
/-! # Round trip: the end of raw text -/
namespace Jotdown.Round
open Jotdown Jotdown.Notation Jotdown.Lex

theorem scanRaw_name {f : Bytes} (h : ∀ c ∈ f, isWs c = false ∧ c ≠ c! '{' ∧ c ≠ c! '}') (r : Bytes) : Inline.scanRaw (f ++ c! '}' :: r) = (f.length, true) := by
  induction f with
  | nil => rfl
  | cons c f ih =>
    obtain ⟨h1, h2, h3⟩ := h c (by simp)
    have := ih (fun c hc => h c (by simp [hc]))
    simp only [List.cons_append, Inline.scanRaw, h2, h3, h1, if_false, Bool.false_eq_true, this, List.length_cons]

/-- Peeking a token. -/
theorem peek_tok {l : Lexer} {v : Bool} {s : Bytes} {t : Token} (h : At l false v s) (hn : l.next = none) (ht : tokenAt false v s = (some t, false)) :
    l.peek = (some t, { l with pos := l.pos + t.len, escape := false, next := some t }) := by
  obtain ⟨h0, ⟨h1, h2, h3⟩ | ⟨t1, e1, h1, _⟩⟩ := h
  · unfold Lexer.peek
    rw [hn]
    simp only
    rw [token_some (l := l) (by rw [h2, h0, h3]; exact ht)]
  · rw [hn] at h1; cases h1

theorem set_same {Q : List Inline.Event} {i : Nat} {k : Inline.EventKind} {evs : List Inline.Event} (h : Inline.setKind Q i k = .ok evs) (c : Inline.Container) (hk : k = .enter c) : evs = setC Q i c := by
  subst hk
  unfold Inline.setKind idx at h
  unfold setC
  cases hq : Q[i]? with
  | none => rw [hq] at h; cases h
  | some e => rw [hq] at h; cases h; rfl

/-- The end of verbatim text with a format. -/
theorem parse_tock_raw {p : Inline.IP} {v : Inline.VerbatimState} (hv : p.verbatim = some v) {f r : Bytes} (hf : FormatName f) (hn : p.input.lexer.next = none)
    (hl : At p.input.lexer false true (b! "{=" ++ f ++ b! "}" ++ r)) (htx : textAt p.input.src ⟨p.input.span.stop + 2, p.input.span.stop + 2 + f.length⟩ = f)
    {q : Inline.IP} {fl : Inline.Flow} (hp : p.parseToken ⟨.seq .backtick, v.lenOpener⟩ = .ok (q, fl)) :
    fl = .cont ∧ ∃ l2, At l2 false false r ∧ q = { p with
      verbatim := none
      events := kept v (setC p.events v.eventOpener (.rawFormat f)) ++ [⟨.exit (.rawFormat f), ⟨p.input.span.start, p.input.span.stop + 2 + f.length + 1⟩⟩]
      input := { p.input with lexer := l2, span := ⟨p.input.span.start, p.input.span.stop + 2 + f.length + 1⟩ } } := by
  refine parse_verb (P := fun r' => ∃ l2, At l2 false false r ∧ r'.1 = { p with
      verbatim := none
      events := kept v (setC p.events v.eventOpener (.rawFormat f)) ++ [⟨.exit (.rawFormat f), ⟨p.input.span.start, p.input.span.stop + 2 + f.length + 1⟩⟩]
      input := { p.input with lexer := l2, span := ⟨p.input.span.start, p.input.span.stop + 2 + f.length + 1⟩ } }) ?_ hp
  intro r' hr
  unfold Inline.IP.parseVerbatim at hr
  rw [hv] at hr
  simp only [and_self, if_true] at hr
  unfold Inline.IP.closeVerbatim at hr
  have hs : b! "{=" ++ f ++ b! "}" ++ r = c! '{' :: c! '=' :: (f ++ c! '}' :: r) := by simp
  rw [hs] at hl
  have htok : tokenAt false true (c! '{' :: c! '=' :: (f ++ c! '}' :: r)) = (some ⟨.opn .braceEqual, 2⟩, false) := by
    rw [tokenAt_mode (by simp)]; exact tok_opn .highlight _
  have hpk := peek_tok hl hn htok
  have hahead : ∀ a, Lexer.ahead { p.input.lexer with pos := p.input.lexer.pos + 2, escape := false, next := some ⟨.opn .braceEqual, 2⟩ } = .ok a → a = c! '{' :: c! '=' :: (f ++ c! '}' :: r) := by
    intro a ha
    refine ahead_rest hl hn ?_
    unfold Lexer.ahead Lexer.nextLen at ha ⊢
    rw [hn]
    simp only at ha ⊢
    obtain ⟨k, h1, h2⟩ := bind_ok ha
    have : k = p.input.lexer.pos := by
      unfold csub at h1
      rw [if_pos (by omega)] at h1
      cases h1
      omega
    subst this
    have h3 : csub p.input.lexer.pos 0 = .ok p.input.lexer.pos := by unfold csub; rw [if_pos (by omega)]; rfl
    rw [h3]
    exact h2
  have hraw : ∀ r2, p.rawFormat v.eventOpener = .ok r2 → ∃ l2, At l2 false false r ∧ r2 = ({ p with
      events := setC p.events v.eventOpener (.rawFormat f)
      input := { p.input with lexer := l2, span := ⟨p.input.span.start, p.input.span.stop + 2 + f.length + 1⟩ } }, true) := by
    intro r2 h2
    unfold Inline.IP.rawFormat at h2
    obtain ⟨r3, h3, h2⟩ := bind_ok h2
    unfold Inline.Input.aheadRawFormat Inline.Input.peekKind Inline.Input.peek at h3
    rw [hpk] at h3
    simp only [Option.map_some, if_true] at h3
    obtain ⟨a, ha, h3⟩ := bind_ok h3
    have := hahead a ha
    subst this
    simp only [List.drop_succ_cons, List.drop_zero, scanRaw_name hf.2] at h3
    have hpos : 0 < f.length := List.length_pos_iff.mpr hf.1
    simp only [hpos, decide_true, Bool.and_self, if_true] at h3
    unfold Inline.Input.eatRawFormat at h3
    obtain ⟨_, _, h3⟩ := bind_ok h3
    obtain ⟨l2, h4, h3⟩ := bind_ok h3
    have heat : (Inline.Input.eat { p.input with lexer := { p.input.lexer with pos := p.input.lexer.pos + 2, escape := false, next := some ⟨.opn .braceEqual, 2⟩ } }).2 =
        { p.input with lexer := { p.input.lexer with pos := p.input.lexer.pos + 2, escape := false, next := none }, span := ⟨p.input.span.start, p.input.span.stop + 2⟩ } := rfl
    rw [heat] at h3 h4
    have hat : At { p.input.lexer with pos := p.input.lexer.pos + 2, escape := false, next := none } false true (f ++ c! '}' :: r) := by
      refine ⟨hl.1, .inl ⟨rfl, rfl, ?_⟩⟩
      have := at_rest hl hn
      have h5 : p.input.lexer.rest.drop 2 = f ++ c! '}' :: r := by rw [this]; rfl
      rw [← h5]
      simp [Lexer.rest, List.drop_drop]
    have hl2 := skip_rest hat rfl h4
    have hd : (f ++ c! '}' :: r).drop (f.length + 1) = r := by
      rw [← List.drop_drop, List.drop_left]; rfl
    rw [hd] at hl2
    cases h3
    simp only at h2
    obtain ⟨fmt, h6, h2⟩ := bind_ok h2
    have hfmt : fmt = f := by
      rw [strSlice_take h6]
      exact htx
    subst hfmt
    obtain ⟨evs, h7, h2⟩ := bind_ok h2
    have := set_same h7 _ rfl
    subst this
    cases h2
    exact ⟨l2, hl2, rfl⟩
  obtain ⟨r2, h1, hr⟩ := bind_ok hr
  obtain ⟨l2, h2, rfl⟩ := hraw r2 h1
  obtain ⟨ty, h3, hr⟩ := bind_ok hr
  have hlen : ∃ e, p.events[v.eventOpener]? = some e := by
    cases hx : p.events[v.eventOpener]? with
    | some e => exact ⟨e, rfl⟩
    | none =>
      unfold Inline.enterAt idx at h3
      simp only [setC, hx] at h3
      cases h3
  obtain ⟨e0, he0⟩ := hlen
  have hty : ty = .rawFormat f := by
    unfold Inline.enterAt idx at h3
    simp only [setC, he0] at h3
    rw [List.getElem?_set_self (List.getElem?_eq_some_iff.mp he0).1] at h3
    cases h3
    rfl
  subst hty
  obtain ⟨_, _, hr⟩ := bind_ok hr
  obtain ⟨evs, h4, hr⟩ := bind_ok hr
  have hevs : evs = kept v (setC p.events v.eventOpener (.rawFormat f)) := by
    unfold Inline.truncateVerbatim at h4
    unfold kept
    split at h4
    · rename_i hx
      rw [hx]
      split at h4
      · cases h4; rfl
      · cases h4
    · rename_i hx
      cases h4
      split
      · rename_i hy; exact absurd hy (hx _)
      · rfl
  subst hevs
  simp only [if_true] at hr
  cases hr
  exact ⟨_, rfl, { l2 with verbatim := false }, ⟨rfl, h2.2⟩, rfl⟩


end Jotdown.Round
