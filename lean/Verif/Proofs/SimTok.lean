import Verif.Proofs.SimParse
/-! # Other tokens in parsers that read the same text -/
namespace Jotdown.Inline
open Jotdown

variable {D : List Event} {E : Nat} {m : Mode}

theorem pushAutolink_sim {p q : IP} {n : Nat} {r r' : IP × Option Flow} (h : Sim D E m p q) (h1 : p.pushAutolink n = .ok r) (h2 : q.pushAutolink n = .ok r') :
    Same D E m r r' := by
  unfold IP.pushAutolink at h1 h2
  obtain ⟨l, a1, h1⟩ := bind_ok h1
  obtain ⟨l', b1, h2⟩ := bind_ok h2
  cases h.inp.lex.skipAhead a1 b1
  rw [h.inp.src, h.inp.span] at h2
  obtain ⟨u, a2, h1⟩ := bind_ok h1
  obtain ⟨u', b2, h2⟩ := bind_ok h2
  rw [a2] at b2; cases b2
  cases h1; cases h2
  refine ⟨rfl, ⟨⟨h.inp.src, rfl, .refl _, h.inp.lines⟩, h.openers, ?_, h.verbatim, h.attributes, h.cow, h.attrs, fun _ => skipAhead_verb a1⟩⟩
  simp only
  rw [h.events, List.append_assoc]

theorem parseAutolink_sim {p q : IP} {t : Lex.Token} {r r' : IP × Option Flow} (h : Sim D E m p q) (h1 : p.parseAutolink t = .ok r) (h2 : q.parseAutolink t = .ok r') :
    Same D E m r r' := by
  unfold IP.parseAutolink at h1 h2
  by_cases ht : t.kind = .sym .lt
  · rw [if_pos ht] at h1 h2
    obtain ⟨a, a1, h1⟩ := bind_ok h1
    obtain ⟨a', b1, h2⟩ := bind_ok h2
    cases h.inp.lex.ahead a1 b1
    split at h1
    · rename_i hc
      rw [if_pos hc] at h2
      exact pushAutolink_sim h h1 h2
    · rename_i hc
      rw [if_neg hc] at h2
      cases h1; cases h2
      exact ⟨rfl, h⟩
  · rw [if_neg ht] at h1 h2
    cases h1; cases h2
    exact ⟨rfl, h⟩

theorem pushNamed_sim {p q : IP} {n : Nat} {f : Bytes → Atom} {r r' : IP × Option Flow} (h : Sim D E m p q) (h1 : p.pushNamed n f = .ok r) (h2 : q.pushNamed n f = .ok r') :
    Same D E m r r' := by
  unfold IP.pushNamed at h1 h2
  obtain ⟨l, a1, h1⟩ := bind_ok h1
  obtain ⟨l', b1, h2⟩ := bind_ok h2
  cases h.inp.lex.skipAhead a1 b1
  rw [h.inp.src, h.inp.span] at h2
  obtain ⟨u, a2, h1⟩ := bind_ok h1
  obtain ⟨u', b2, h2⟩ := bind_ok h2
  rw [a2] at b2; cases b2
  cases h1; cases h2
  refine ⟨rfl, ?_⟩
  have hs := h.input (i := { p.input with lexer := l, span := ⟨p.input.span.start, p.input.span.stop + n + 1⟩ })
    (j := { q.input with lexer := l, span := ⟨p.input.span.start, p.input.span.stop + n + 1⟩ }) ⟨h.inp.src, rfl, .refl _, h.inp.lines⟩ (fun _ => skipAhead_verb a1)
  exact hs.push (.atom (f u))

theorem parseSymbol_sim {p q : IP} {t : Lex.Token} {r r' : IP × Option Flow} (h : Sim D E m p q) (h1 : p.parseSymbol t = .ok r) (h2 : q.parseSymbol t = .ok r') :
    Same D E m r r' := by
  unfold IP.parseSymbol at h1 h2
  by_cases ht : t.kind = .sym .colon
  · rw [if_pos ht] at h1 h2
    obtain ⟨a, a1, h1⟩ := bind_ok h1
    obtain ⟨a', b1, h2⟩ := bind_ok h2
    cases h.inp.lex.ahead a1 b1
    split at h1
    · rename_i hc
      rw [if_pos hc] at h2
      exact pushNamed_sim h h1 h2
    · rename_i hc
      rw [if_neg hc] at h2
      cases h1; cases h2
      exact ⟨rfl, h⟩
  · rw [if_neg ht] at h1 h2
    cases h1; cases h2
    exact ⟨rfl, h⟩

theorem footnoteLabel_sim {p q : IP} {r r' : IP × Option Flow} (h : Sim D E m p q) (h1 : p.footnoteLabel = .ok r) (h2 : q.footnoteLabel = .ok r') :
    Same D E m r r' := by
  unfold IP.footnoteLabel at h1 h2
  obtain ⟨_, _, h1⟩ := bind_ok h1
  obtain ⟨_, _, h2⟩ := bind_ok h2
  obtain ⟨a, a1, h1⟩ := bind_ok h1
  obtain ⟨a', b1, h2⟩ := bind_ok h2
  cases h.inp.eat.2.lex.ahead a1 b1
  split at h1
  · rename_i hc
    rw [if_pos hc] at h2
    exact pushNamed_sim h.eaten h1 h2
  · rename_i hc
    rw [if_neg hc] at h2
    cases h1; cases h2
    exact ⟨rfl, h.eaten⟩

theorem parseFootnote_sim {p q : IP} {t : Lex.Token} {r r' : IP × Option Flow} (h : Sim D E m p q) (h1 : p.parseFootnoteReference t = .ok r) (h2 : q.parseFootnoteReference t = .ok r') :
    Same D E m r r' := by
  unfold IP.parseFootnoteReference at h1 h2
  by_cases ht : t.kind = .opn .bracket
  · rw [if_pos ht] at h1 h2
    rw [h.inp.peekKind.1] at h2
    split at h1
    · rename_i hc
      rw [if_pos hc] at h2
      exact footnoteLabel_sim h.peeked h1 h2
    · rename_i hc
      rw [if_neg hc] at h2
      cases h1; cases h2
      exact ⟨rfl, h.peeked⟩
  · rw [if_neg ht] at h1 h2
    cases h1; cases h2
    exact ⟨rfl, h⟩

/-! ## Containers -/

theorem shift_closedBy (o : Opener) (n : Nat) (k : Lex.Kind) : (o.shift n).closedBy k = o.closedBy k := by
  cases o with
  | link a b c => cases c <;> rfl
  | _ => rfl
theorem shift_bidirectional (o : Opener) (n : Nat) : (o.shift n).bidirectional = o.bidirectional := by cases o <;> rfl
theorem shift_isLinkOrSpan (o : Opener) (n : Nat) : (o.shift n).isLinkOrSpan = o.isLinkOrSpan := by cases o <;> rfl
theorem shift_double (o : Opener) (n : Nat) : (o.shift n = .doubleQuoted) = (o = .doubleQuoted) := by cases o <;> simp [Opener.shift]
theorem shift_single (o : Opener) (n : Nat) : (o.shift n = .singleQuoted) = (o = .singleQuoted) := by cases o <;> simp [Opener.shift]

theorem findOpener_app (k : Lex.Kind) (n : Nat) : ∀ os : List (Opener × Nat), findOpener k (os.map (fun o => (o.1.shift n, o.2 + n))) =
    (findOpener k os).map (fun x => ((x.1.1.shift n, x.1.2 + n), x.2.map (fun o => (o.1.shift n, o.2 + n)))) := by
  intro os
  induction os with
  | nil => rfl
  | cons o os ih =>
    simp only [List.map_cons, findOpener, shift_closedBy]
    split
    · rfl
    · exact ih

theorem openerEvents_app {o : Opener} {e n : Nat} {r r' : Nat × Nat} (h1 : openerEvents o e = .ok r) (h2 : openerEvents (o.shift n) (e + n) = .ok r') :
    r' = (r.1 + n, r.2 + n) := by
  unfold openerEvents at h1 h2
  cases o with
  | link a b c =>
    simp only [Opener.shift] at h1 h2
    obtain ⟨x, a1, h1⟩ := bind_ok h1
    obtain ⟨y, b1, h2⟩ := bind_ok h2
    cases csub_app a1 b1
    cases h1; cases h2; rfl
  | _ => simp only [Opener.shift] at h1 h2; cases h1; cases h2; rw [Prod.mk.injEq]; exact ⟨rfl, by simp only; omega⟩

theorem afterClose_sim {p q : IP} {o : Opener} {e : Nat} {r r' : IP × Option Flow} (h : Sim D E m p q) (ha : p.attributes = none) (h1 : p.afterClose o e = .ok r)
    (h2 : q.afterClose (o.shift D.length) (e + D.length) = .ok r') : Agree D E m r r' := by
  unfold IP.afterClose at h1 h2
  rw [h.inp.peekKind.1] at h2
  split at h1
  · rename_i hc
    rw [if_pos hc] at h2
    simp only [shift_double, shift_single] at h2
    refine aheadOr_sim h.peeked ha h1 ?_
    by_cases hq : o = .doubleQuoted ∨ o = .singleQuoted
    · rw [if_pos hq] at h2 ⊢; exact h2
    · rw [if_neg hq] at h2 ⊢; exact h2
  · rename_i hc
    rw [if_neg hc] at h2
    cases h1; cases h2
    exact .eq h.peeked

theorem closeLink_sim {p q : IP} {e s : Nat} {im il : Bool} {r r' : IP} (h : Sim D E m p q) (h1 : p.closeLink e s im il = .ok r)
    (h2 : q.closeLink (e + D.length) (s + D.length) im il = .ok r') : Sim D E m r r' ∧ r.attributes = p.attributes := by
  unfold IP.closeLink at h1 h2
  obtain ⟨sp, _, h1⟩ := bind_ok h1
  obtain ⟨sp', _, h2⟩ := bind_ok h2
  simp only at h1 h2
  rw [h.events, h.cow, h.inp.span] at h2
  obtain ⟨es, a1, h1⟩ := bind_ok h1
  obtain ⟨es', b1, h2⟩ := bind_ok h2
  cases setKind_app a1 b1
  obtain ⟨i, a2, h1⟩ := bind_ok h1
  obtain ⟨i', b2, h2⟩ := bind_ok h2
  cases csub_app a2 b2
  rw [idx_app] at h2
  obtain ⟨ev, a3, h1⟩ := bind_ok h1
  obtain ⟨ev', b3, h2⟩ := bind_ok h2
  rw [a3] at b3; cases b3
  cases h1; cases h2
  refine ⟨⟨⟨h.inp.src, h.inp.span, h.inp.lex, h.inp.lines⟩, h.openers, ?_, h.verbatim, h.attributes, by simp only [List.length_append]; rw [h.cow]; rfl, h.attrs, h.vf⟩, rfl⟩
  simp only
  rw [set_app, List.take_append, List.take_of_length_le (by omega), Nat.add_sub_cancel]

theorem openLink_sim {p q : IP} {ty : SpanType} {e : Nat} {d : Lex.Delimiter} (h : Sim D E m p q) : Sim D E m (p.openLink ty e d) (q.openLink ty (e + D.length) d) := by
  have hi := h.inp.resetSpan.eat.2
  unfold IP.openLink
  refine ⟨hi, ?_, ?_, h.verbatim, h.attributes, h.cow, h.attrs, fun hv => ?_⟩
  · simp only [List.map_cons, Opener.shift, h.openers, h.events, List.length_append]
    rw [show D.length + p.events.length + 1 = p.events.length + 1 + D.length by omega]
  · simp only
    rw [hi.span, h.inp.span, h.events, List.append_assoc]
  · simp only
    rw [eat_verb]
    exact h.vf hv

theorem closeOpener_sim {p q : IP} {o : Opener} {a e : Nat} {r r' : IP × Option Flow} (h : Sim D E m p q) (ha : p.attributes = none) (h1 : p.closeOpener o a e = .ok r)
    (h2 : q.closeOpener (o.shift D.length) (a + D.length) (e + D.length) = .ok r') : Agree D E m r r' := by
  have hcon : ∀ c k, ∀ es : List Event, (setKind p.events e k = .ok es) → ∀ es', setKind q.events (e + D.length) k = .ok es' →
      Sim D E m { p with events := es ++ [⟨c, p.input.span⟩] } { q with events := es' ++ [⟨c, q.input.span⟩] } := by
    intro c k es a1 es' b1
    rw [h.events] at b1
    cases setKind_app a1 b1
    exact h.evs (by rw [h.inp.span, List.append_assoc])
  unfold IP.closeOpener at h1 h2
  cases hk : DelimEventKind.ofOpener o with
  | container c =>
    have hk' : DelimEventKind.ofOpener (o.shift D.length) = .container c := by
      rw [← hk]; cases o <;> first | rfl | (simp [DelimEventKind.ofOpener] at hk)
    rw [hk] at h1
    rw [hk'] at h2
    simp only at h1 h2
    obtain ⟨es, a1, h1⟩ := bind_ok h1
    obtain ⟨es', b1, h2⟩ := bind_ok h2
    exact afterClose_sim (hcon _ _ _ a1 _ b1) ha h1 h2
  | quote c =>
    have hk' : DelimEventKind.ofOpener (o.shift D.length) = .quote c := by
      rw [← hk]; cases o <;> first | rfl | (simp [DelimEventKind.ofOpener] at hk)
    rw [hk] at h1
    rw [hk'] at h2
    simp only at h1 h2
    obtain ⟨es, a1, h1⟩ := bind_ok h1
    obtain ⟨es', b1, h2⟩ := bind_ok h2
    exact afterClose_sim (hcon _ _ _ a1 _ b1) ha h1 h2
  | span ty =>
    have hk' : DelimEventKind.ofOpener (o.shift D.length) = .span ty := by
      rw [← hk]; cases o <;> first | rfl | (simp [DelimEventKind.ofOpener] at hk)
    rw [hk] at h1
    rw [hk'] at h2
    simp only at h1 h2
    rw [h.inp.peekKind.1] at h2
    split at h1
    · rename_i hc
      rw [if_pos hc] at h2
      cases h1; cases h2
      exact .eq (openLink_sim h.peeked)
    · rename_i hc
      rw [if_neg hc] at h2
      split at h1
      · rename_i hc
        rw [if_pos hc] at h2
        cases h1; cases h2
        exact .eq (openLink_sim h.peeked)
      · rename_i hc
        rw [if_neg hc] at h2
        exact afterClose_sim (h.peeked.push .str) ha h1 h2
  | link s im il =>
    have hk' : DelimEventKind.ofOpener (o.shift D.length) = .link (s + D.length) im il := by
      cases o <;> first | (simp [DelimEventKind.ofOpener] at hk; done) | (simp [DelimEventKind.ofOpener] at hk; obtain ⟨rfl, rfl, rfl⟩ := hk; rfl)
    rw [hk] at h1
    rw [hk'] at h2
    simp only at h1 h2
    obtain ⟨p1, a1, h1⟩ := bind_ok h1
    obtain ⟨q1, b1, h2⟩ := bind_ok h2
    have := closeLink_sim h a1 b1
    exact afterClose_sim this.1 (by rw [this.2, ha]) h1 h2

theorem tryClose_sim {p q : IP} {t : Lex.Token} {r r' : IP × Option Flow} (h : Sim D E m p q) (ha : p.attributes = none) (h1 : p.tryClose t = .ok r)
    (h2 : q.tryClose t = .ok r') : Agree D E m r r' := by
  unfold IP.tryClose at h1 h2
  rw [h.openers, findOpener_app] at h2
  cases hf : findOpener t.kind p.openers with
  | none =>
    rw [hf] at h1 h2
    simp only [Option.map_none] at h1 h2
    cases h1; cases h2
    exact .eq h
  | some x =>
    obtain ⟨o, below⟩ := x
    rw [hf] at h1 h2
    simp only [Option.map_some] at h1 h2
    obtain ⟨e, a1, h1⟩ := bind_ok h1
    obtain ⟨e', b1, h2⟩ := bind_ok h2
    cases openerEvents_app a1 b1
    rw [h.events] at h2
    obtain ⟨l, a2, h1⟩ := bind_ok h1
    obtain ⟨l', b2, h2⟩ := bind_ok h2
    cases last_app a2 b2
    have hw : q.input.wsBefore = p.input.wsBefore := by unfold Input.wsBefore; rw [h.inp.src, h.inp.span]
    have he : (e.2 + D.length = l + D.length) = (e.2 = l) := by simp
    simp only [shift_isLinkOrSpan, shift_bidirectional, hw, he] at h2
    split at h1
    · rename_i hc
      rw [if_pos hc] at h2
      cases h1; cases h2
      exact .eq h
    · rename_i hc
      rw [if_neg hc] at h2
      split at h1
      · rename_i hc
        rw [if_pos hc] at h2
        cases h1; cases h2
        exact .eq h
      · rename_i hc
        rw [if_neg hc] at h2
        have hs : Sim D E m { p with openers := below } { q with openers := below.map (fun o => (o.1.shift D.length, o.2 + D.length)) } :=
          ⟨h.inp, rfl, h.events, h.verbatim, h.attributes, h.cow, h.attrs, h.vf⟩
        rw [← h.events] at h2
        exact closeOpener_sim hs ha h1 h2

theorem fromToken_shift {k : Lex.Kind} {o : Opener} {n : Nat} (h : Opener.fromToken k = some o) : o.shift n = o := by
  cases o with
  | link a b c =>
    unfold Opener.fromToken at h
    split at h <;> simp at h
  | _ => rfl

theorem tryOpen_sim {p q : IP} (hD : Closed D) {t : Lex.Token} {r r' : IP × Option Flow} (h : Sim D E m p q) (h1 : p.tryOpen t = .ok r)
    (h2 : q.tryOpen t = .ok r') : Same D E m r r' := by
  unfold IP.tryOpen at h1 h2
  cases hf : Opener.fromToken t.kind with
  | none =>
    rw [hf] at h1 h2
    cases h1; cases h2
    exact ⟨rfl, h⟩
  | some o =>
    rw [hf] at h1 h2
    simp only at h1 h2
    obtain ⟨a, a1, h1⟩ := bind_ok h1
    obtain ⟨a', b1, h2⟩ := bind_ok h2
    cases h.inp.lex.ahead a1 b1
    have hw : q.input.wsBefore' = p.input.wsBefore' := by unfold Input.wsBefore'; rw [h.inp.src, h.inp.span]
    rw [h.events, hD.str, hw] at h2
    cases a
    all_goals
      simp only at h1 h2
      split at h1
      · rename_i hc
        rw [if_pos hc] at h2
        cases h1; cases h2
        exact ⟨rfl, h⟩
      · rename_i hc
        rw [if_neg hc] at h2
        obtain ⟨w, a2, h1⟩ := bind_ok h1
        obtain ⟨w', b2, h2⟩ := bind_ok h2
        rw [a2] at b2; cases b2
        split at h1
        · rename_i hc
          rw [if_pos hc] at h2
          cases h1; cases h2
          exact ⟨rfl, h⟩
        · rename_i hc
          rw [if_neg hc] at h2
          cases h1; cases h2
          refine ⟨rfl, ⟨h.inp, ?_, ?_, h.verbatim, h.attributes, h.cow, h.attrs, h.vf⟩⟩
          · simp only [List.map_cons, fromToken_shift hf, h.openers, List.length_append]
            rw [Nat.add_comm]
          · simp only
            rw [h.inp.span, List.append_assoc]

/-! ## Atoms -/

theorem ellipses_sim {n : Nat} : ∀ {p q : IP}, Sim D E m p q → Sim D E m (p.ellipses n) (q.ellipses n) := by
  induction n with
  | zero => intro p q h; exact h
  | succ n ih =>
    intro p q h
    unfold IP.ellipses
    rw [h.inp.span]
    have := h.pushSp (.atom .ellipsis) ⟨p.input.span.start, p.input.span.start + 3⟩
    exact ih (this.input (i := { p.input with span := ⟨p.input.span.start + 3, p.input.span.stop⟩ }) (j := { q.input with span := ⟨p.input.span.start + 3, q.input.span.stop⟩ })
      ⟨h.inp.src, by simp only; rw [h.inp.span], h.inp.lex, h.inp.lines⟩ h.vf)

theorem repeatAtom_sim {a : Atom} {w n : Nat} : ∀ {p q : IP}, Sim D E m p q → Sim D E m (p.repeatAtom a w n) (q.repeatAtom a w n) := by
  induction n with
  | zero => intro p q h; exact h
  | succ n ih =>
    intro p q h
    unfold IP.repeatAtom
    rw [h.inp.span]
    have := h.pushSp (.atom a) ⟨p.input.span.start, p.input.span.start + w⟩
    exact ih (this.input (i := { p.input with span := ⟨p.input.span.start + w, p.input.span.stop⟩ }) (j := { q.input with span := ⟨p.input.span.start + w, q.input.span.stop⟩ })
      ⟨h.inp.src, by simp only; rw [h.inp.span], h.inp.lex, h.inp.lines⟩ h.vf)

theorem parseAtom_sim {p q : IP} {t : Lex.Token} {r r' : IP × Option Flow} (h : Sim D E m p q) (h1 : p.parseAtom t = .ok r) (h2 : q.parseAtom t = .ok r') :
    Same D E m r r' := by
  unfold IP.parseAtom at h1 h2
  split at h1
  · rename_i hc
    rw [if_pos hc] at h2
    cases h1; cases h2
    rw [h.inp.span]
    exact ⟨rfl, ellipses_sim h⟩
  · rename_i hc
    rw [if_neg hc] at h2
    split at h1
    · rename_i hc
      rw [if_pos hc] at h2
      obtain ⟨d, a1, h1⟩ := bind_ok h1
      obtain ⟨d', b1, h2⟩ := bind_ok h2
      rw [a1] at b1; cases b1
      cases h1; cases h2
      exact ⟨rfl, repeatAtom_sim (repeatAtom_sim h)⟩
    · rename_i hc
      rw [if_neg hc] at h2
      cases ha : atomOf t.kind with
      | some a =>
        rw [ha] at h1 h2
        cases h1; cases h2
        exact ⟨rfl, h.push _⟩
      | none =>
        rw [ha] at h1 h2
        cases h1; cases h2
        exact ⟨rfl, h⟩

end Jotdown.Inline
