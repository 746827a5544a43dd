import Verif.Proofs.InlVerb
/-! # Parsers of tokens -/
namespace Jotdown.Inline
open Jotdown
open Jotdown.Block
open Jotdown.Notation

variable {c : Cx}

/-- An event was pushed for all that was read. -/
theorem Mid.push (hc : c.Ok) {p : IP} {t : Lex.Token} (h : Mid c p t) (hv : p.verbatim = none) {k : EventKind} (hp : k = .str ∨ ∃ a, k = .atom a)
    (hk : KindOk p.storeCowstrs.length p.storeAttributes.length k) (hkt : KindText k (sliceOf c.src p.input.span)) (hph : k ≠ .placeholder := by simp) : Adv c (p.push k) := by
  have hlay : Lay (nts c p) p.openers c.lo p.events p.input.span.start := by have := h.queue; rw [hv] at this; exact this
  have hsp := h.inp.spanOk hc
  have hpot := h.pot
  rw [pot_none hv] at hpot
  have hne := h.ne
  have hlen := hsp.len
  refine ⟨⟨h.inp, h.attr, ?_, EvsOk.push h.evs ⟨hsp, hk, hkt⟩, h.store, LastOk.append (fun _ => .inl hne) hph, ?_, .none hv⟩, h.q, h.al⟩
  · show QueueOk (nts c p) p.verbatim p.openers c.lo (p.events ++ [_]) p.input.span.stop
    rw [hv]
    exact hlay.one (hp.imp_right .inr) ⟨Nat.le_refl _, hsp.le⟩ (Nat.le_refl _)
  · rw [pot_none (by exact hv)]
    show weight (p.events ++ [⟨k, p.input.span⟩]) + 3 * (c.src.length - p.input.span.stop) ≤ c.K
    have : wt ⟨k, p.input.span⟩ ≤ 1 + (p.input.span.stop - p.input.span.start) := by
      rcases hp with rfl | ⟨a, rfl⟩ <;> simp [wt, Span.len]
    simp
    omega

/-! ## Attributes -/

theorem parseAttributes_ok (hc : c.Ok) {p : IP} {t : Lex.Token} (h : Mid c p t) (hv : p.verbatim = none) :
    Sat Never (p.parseAttributes t) (Res c (fun p' => p' = p)) := by
  have hlay : Lay (nts c p) p.openers c.lo p.events p.input.span.start := by have := h.queue; rw [hv] at this; exact this
  unfold IP.parseAttributes
  split
  · rename_i hk
    rw [h.attr]
    simp only
    obtain ⟨h1, h2⟩ := h.text (by rw [hk]; simp)
    rw [hk] at h1
    have h3 := text_slice h1 (h.inp.spanOk hc)
    simp [Lex.Delimiter.openText] at h3
    have h4 : (sliceOf c.src p.input.span).head? = some (c! '{') := by rw [h1]; rfl
    obtain ⟨h5, h6⟩ := slice_drop1_src (a := p.input.span.start) (b := p.input.span.stop) h4
    have hst := h.inp.stop
    refine aheadAttributes_ok hc (ty := .word) (s := p.input.span.start) (eaten := true) ⟨h.inp, h.attr, hv, hlay, h.evs, h.store, h.last, h.pot, ?_, h.al⟩
      h.line (by omega) h.inp.bs h5 (h.brace hk) (by simp) ?_
    · have := h.q; omega
    · rw [h3]; simp [csub]
  · rw [h.attr]
    exact rfl

/-! ## Autolinks -/

theorem scanAutolink_ok {cs : Bytes} (h : (scanAutolink cs).2.1 = true) :
    (scanAutolink cs).1 < cs.length ∧ cs[(scanAutolink cs).1]? = some (c! '>') ∧
      (∀ b ∈ cs.take (scanAutolink cs).1, isWs b = false ∧ b ≠ c! '<' ∧ b ≠ c! '>') ∧
      ((scanAutolink cs).2.2 = true → c! ':' ∈ cs.take (scanAutolink cs).1 ∨ c! '@' ∈ cs.take (scanAutolink cs).1) := by
  induction cs with
  | nil => simp [scanAutolink] at h
  | cons x cs ih =>
    unfold scanAutolink at h ⊢
    split at h
    · simp at h
    · rename_i h1
      rw [if_neg h1]
      split at h
      · rename_i h2; rw [if_pos h2]; simp [h2]
      · rename_i h2
        rw [if_neg h2]
        simp only at h ⊢
        split at h
        · simp at h
        · rename_i h3
          rw [if_neg h3]
          obtain ⟨i1, i2, i3, i4⟩ := ih h
          refine ⟨by simp; omega, by simpa using i2, ?_, ?_⟩
          · intro b hb
            simp only [List.take_succ_cons, List.mem_cons] at hb
            rcases hb with rfl | hb
            · exact ⟨by simpa using h3, h1, h2⟩
            · exact i3 b hb
          · simp only [List.take_succ_cons, List.mem_cons, Bool.or_eq_true, beq_iff_eq]
            rintro ((hx | hx) | hx)
            · exact .inl (.inl hx.symm)
            · exact .inr (.inl hx.symm)
            · rcases i4 hx with hx | hx
              · exact .inl (.inr hx)
              · exact .inr (.inr hx)

theorem parseAutolink_ok (hc : c.Ok) {p : IP} {t : Lex.Token} (h : Mid c p t) (hv : p.verbatim = none)
    (hn : t.kind ≠ .text → p.input.lexer.next = none) :
    Sat Never (p.parseAutolink t) (Res c (fun p' => p' = p)) := by
  have hlay : Lay (nts c p) p.openers c.lo p.events p.input.span.start := by have := h.queue; rw [hv] at this; exact this
  have hsp := h.inp.spanOk hc
  have hpot := h.pot
  rw [pot_none hv] at hpot
  have hne := h.ne
  unfold IP.parseAutolink
  split
  · rename_i hk
    rw [h.inp.rem.ahead]
    simp only [Bind.bind, Except.bind]
    split
    · rename_i hs
      simp only [Bool.and_eq_true] at hs
      obtain ⟨h1, h2, h2b, h2c⟩ := scanAutolink_ok hs.1
      have hadr : Notation.Address (sliceOf c.src ⟨p.input.span.stop, p.input.span.stop + (scanAutolink (sliceOf c.src ⟨p.input.span.stop, p.input.spanLine.stop⟩)).1⟩) := by
        have hlen := h.inp.len hc
        rw [slice_length hlen] at h1
        rw [slice_take (by omega)] at h2b h2c
        exact ⟨h2c hs.2, h2b⟩
      clear h2b h2c
      obtain ⟨l, g1, g2, g3, g4, g5⟩ := skip_term hc h.inp (hn (by rw [hk]; simp)) (by decide) h2
      have htx : sliceOf c.src p.input.span = b! "<" := by
        have := (h.text (by rw [hk]; simp)).1
        rw [hk] at this
        exact this
      have hget := (slice_get h2).1
      generalize (scanAutolink (sliceOf c.src ⟨p.input.span.stop, p.input.spanLine.stop⟩)).1 = len at *
      have hlen := h.inp.len hc
      have hgt : sliceOf c.src ⟨p.input.span.stop + len, p.input.span.stop + len + 1⟩ = b! ">" := by
        rw [slice_last (by omega) (by omega) (by rw [Nat.add_sub_cancel]; exact hget)]
        simp [sliceOf]
      unfold IP.pushAutolink
      rw [g1]
      simp only [Bind.bind, Except.bind]
      have hslice : strSlice p.input.src p.input.span.stop (p.input.span.stop + len) = .ok (sliceOf c.src ⟨p.input.span.stop, p.input.span.stop + len⟩) := by
        rw [h.inp.src]
        exact strSlice_ok (by omega) (by omega) h.inp.be g4
      rw [hslice]
      simp only
      refine Sat.pure ?_
      have hu : SpanOk c.src ⟨p.input.span.stop, p.input.span.stop + len⟩ := ⟨by simp, by simp only; omega, h.inp.be, g4⟩
      have hx : SpanOk c.src ⟨p.input.span.stop + len, p.input.span.stop + len + 1⟩ := ⟨by simp, by simp only; omega, g4, g5⟩
      refine ⟨⟨?_, h.attr, ?_, ?_, h.store, ?_, ?_, .none hv⟩, ?_, h.al⟩
      · exact ⟨h.inp.src, h.inp.cpl, hx.le, g3, g4, g5, h.inp.bl, g2, h.inp.chain, h.inp.nl, h.inp.ls.imp_left (fun h => by simp only; omega)⟩
      · rw [hv]
        refine (hlay.move (p' := ⟨_, _, _, _, _, _, _⟩) rfl rfl (mem_lines rfl rfl)).append ?_
        exact .node (F := [⟨.str, ⟨p.input.span.stop, p.input.span.stop + len⟩⟩]) (x := ⟨.exit _, ⟨p.input.span.stop + len, p.input.span.stop + len + 1⟩⟩) rfl rfl ⟨Nat.le_refl _, hsp.le⟩
          (.one (.inl rfl) ⟨Nat.le_refl _, hu.le⟩ (Nat.le_refl _)) hx.le (Delim.ends ⟨htx, hgt, rfl, hadr⟩) (.nil (Nat.le_refl _))
      · intro e he
        simp at he
        rcases he with he | rfl | rfl | rfl
        · exact h.evs e he
        · exact ⟨hsp, trivial, trivial⟩
        · exact ⟨hu, trivial, trivial⟩
        · exact ⟨hx, trivial, trivial⟩
      · intro e he
        simp at he
        subst he
        simp
      · rw [pot_none (by exact hv)]
        simp [wt, Span.len]
        omega
      · simp only; have := h.q; omega
    · exact rfl
  · exact rfl

/-! ## Symbols -/

theorem scanSymbol_ok {cs : Bytes} (h : (scanSymbol cs).2.1 = true) (hv : (scanSymbol cs).2.2 = true) :
    (scanSymbol cs).1 < cs.length ∧ cs[(scanSymbol cs).1]? = some (c! ':') ∧ ∀ b ∈ cs.take (scanSymbol cs).1, isSymbolChar b = true := by
  induction cs with
  | nil => simp [scanSymbol] at h
  | cons x cs ih =>
    unfold scanSymbol at h hv ⊢
    split at h
    · rename_i h2; rw [if_pos h2]; simp [h2]
    · rename_i h1
      rw [if_neg h1] at hv ⊢
      simp only at h hv ⊢
      split at h
      · simp at h
      · rename_i h3
        rw [if_neg h3] at hv ⊢
        simp only [Bool.and_eq_true] at hv
        obtain ⟨i1, i2, i3⟩ := ih h hv.2
        refine ⟨by simp; omega, by simpa using i2, ?_⟩
        intro b hb
        simp at hb
        rcases hb with rfl | hb
        · exact hv.1
        · exact i3 b hb

theorem pushNamed_ok (hc : c.Ok) {p : IP} {t : Lex.Token} (h : Mid c p t) (hv : p.verbatim = none) (hn : p.input.lexer.next = none)
    {len : Nat} {x : UInt8} (hx : x < 128) (hg : (sliceOf c.src ⟨p.input.span.stop, p.input.spanLine.stop⟩)[len]? = some x) (a : Bytes → Atom)
    (ha : KindOk p.storeCowstrs.length p.storeAttributes.length (.atom (a (sliceOf c.src ⟨p.input.span.stop, p.input.span.stop + len⟩))))
    (hat : AtomText (a (sliceOf c.src ⟨p.input.span.stop, p.input.span.stop + len⟩)) (sliceOf c.src p.input.span ++ sliceOf c.src ⟨p.input.span.stop, p.input.span.stop + len⟩ ++ [x])) :
    Sat Never (p.pushNamed len a) (Res c (fun _ => False)) := by
  have hlay : Lay (nts c p) p.openers c.lo p.events p.input.span.start := by have := h.queue; rw [hv] at this; exact this
  have hsp := h.inp.spanOk hc
  have hpot := h.pot
  rw [pot_none hv] at hpot
  have hne := h.ne
  obtain ⟨l, g1, g2, g3, g4, g5⟩ := skip_term hc h.inp hn hx hg
  have hlen := h.inp.len hc
  unfold IP.pushNamed
  rw [g1]
  simp only [Bind.bind, Except.bind]
  have hslice : strSlice p.input.src p.input.span.stop (p.input.span.stop + len) = .ok (sliceOf c.src ⟨p.input.span.stop, p.input.span.stop + len⟩) := by
    rw [h.inp.src]
    exact strSlice_ok (by omega) (by omega) h.inp.be g4
  rw [hslice]
  simp only
  refine Sat.pure ?_
  have hinp : InpOk c { p.input with lexer := l, span := ⟨p.input.span.start, p.input.span.stop + len + 1⟩ } :=
    ⟨h.inp.src, h.inp.cpl, by simp only; omega, g3, h.inp.bs, g5, h.inp.bl, g2, h.inp.chain, h.inp.nl, h.inp.ls.imp_left (fun h => by simp only; omega)⟩
  have hsp' := hinp.spanOk hc
  have htx : AtomText (a (sliceOf c.src ⟨p.input.span.stop, p.input.span.stop + len⟩)) (sliceOf c.src ⟨p.input.span.start, p.input.span.stop + len + 1⟩) := by
    have e1 := slice_last (src := c.src) (a := p.input.span.start) (b := p.input.span.stop + len + 1) (by omega) (by omega)
      (by rw [Nat.add_sub_cancel]; exact (slice_get hg).1)
    have e2 := slice_append (src := c.src) (a := p.input.span.start) (b := p.input.span.stop) (c := p.input.span.stop + len) (by omega) (by omega) (by omega)
    rw [Nat.add_sub_cancel, ← e2] at e1
    rw [e1]
    exact hat
  refine ⟨⟨hinp, h.attr, ?_, EvsOk.push (p := { p with input := { p.input with lexer := l, span := ⟨p.input.span.start, p.input.span.stop + len + 1⟩ } }) h.evs ⟨hsp', ha, htx⟩, h.store, LastOk.append (by simp), ?_, .none hv⟩, ?_, h.al⟩
  · show QueueOk (nts c _) p.verbatim p.openers c.lo (p.events ++ [_]) (p.input.span.stop + len + 1)
    rw [hv]
    exact (hlay.move rfl rfl (mem_lines rfl rfl)).one (.inr (.inr ⟨_, rfl⟩)) ⟨Nat.le_refl _, hsp'.le⟩ (Nat.le_refl _)
  · rw [pot_none (by exact hv)]
    simp [wt, IP.push, IP.pushSp]
    omega
  · have := h.q
    show c.q < p.input.span.stop + len + 1
    omega

theorem Res.mono {N N' : IP → Prop} {r : IP × Option Flow} (h : Res c N r) (hn : ∀ p, N p → N' p) : Res c N' r := by
  unfold Res at *
  cases h1 : r.2 with
  | none => rw [h1] at h; exact hn _ h
  | some f => rw [h1] at h; cases f <;> exact h

theorem parseSymbol_ok (hc : c.Ok) {p : IP} {t : Lex.Token} (h : Mid c p t) (hv : p.verbatim = none)
    (hn : t.kind ≠ .text → p.input.lexer.next = none) :
    Sat Never (p.parseSymbol t) (Res c (fun p' => p' = p)) := by
  unfold IP.parseSymbol
  split
  · rename_i hk
    rw [h.inp.rem.ahead]
    simp only [Bind.bind, Except.bind]
    split
    · rename_i hs
      simp only [Bool.and_eq_true] at hs
      obtain ⟨h1, h2, h3⟩ := scanSymbol_ok hs.1 hs.2
      refine (pushNamed_ok hc h hv (hn (by rw [hk]; simp)) (by decide) h2 .symbol ?_ ?_).mono (fun r hr => hr.mono (fun _ h => h.elim))
      · have hlen := h.inp.len hc
        rw [slice_length hlen] at h1
        rw [slice_take (by omega)] at h3
        exact h3
      · have := (h.text (by rw [hk]; simp)).1
        rw [hk] at this
        have : sliceOf c.src p.input.span = b! ":" := this
        rw [this]
        refine ⟨rfl, ?_⟩
        have hlen := h.inp.len hc
        rw [slice_length hlen] at h1
        rw [slice_take (by omega)] at h3
        intro b hb
        have := h3 b hb
        simpa [isSymbolChar, or_assoc] using this
    · exact rfl
  · exact rfl

/-! ## Footnote references -/

theorem scanFootnote_ok {cs : Bytes} (h : (scanFootnote cs).2 = true) :
    (scanFootnote cs).1 < cs.length ∧ cs[(scanFootnote cs).1]? = some (c! ']') ∧ Notation.NoteLabel (cs.take (scanFootnote cs).1) := by
  induction cs with
  | nil => simp [scanFootnote] at h
  | cons x cs ih =>
    unfold scanFootnote at h ⊢
    split at h
    · simp at h
    · rename_i h1
      rw [if_neg h1]
      split at h
      · rename_i h2; rw [if_pos h2]; simp [h2, NoteLabel]
      · rename_i h2
        rw [if_neg h2]
        split at h
        · simp at h
        · rename_i h3
          rw [if_neg h3]
          obtain ⟨i1, i2, i3⟩ := ih h
          refine ⟨by simp; omega, by simpa using i2, ?_⟩
          intro b hb
          simp only [List.take_succ_cons, List.mem_cons] at hb
          rcases hb with rfl | hb
          · exact ⟨h1, h2, h3⟩
          · exact i3 b hb

theorem parseFootnoteReference_ok (hc : c.Ok) {p : IP} {t : Lex.Token} (h : Mid c p t) (hv : p.verbatim = none) (hbr : t.kind = .opn .bracket → sliceOf c.src p.input.span = b! "[") :
    Sat Never (p.parseFootnoteReference t) (Res c (fun p' => Mid c p' t ∧ p'.verbatim = none)) := by
  unfold IP.parseFootnoteReference
  split
  · rename_i hk
    obtain ⟨l, hl, hpk⟩ := h.inp.peek
    have h2 : p.input.peekKind.2 = { p.input with lexer := l } := hl
    rw [h2]
    have hi := h.inp.lex hpk.rem
    have hm : Mid c { p with input := { p.input with lexer := l } } t :=
      ⟨hi, h.attr, h.queue, h.evs, h.store, h.last, h.pot, h.ne, h.q, h.al, h.text, h.bracket, h.line, h.brace, .none hv, fun h' => by rw [hk] at h'; cases h'⟩
    split
    · rename_i hpk2
      obtain ⟨t', ht, htk⟩ := peekKind_some hpk2
      obtain ⟨⟨h3, h4⟩, h5, h6⟩ := hpk.some t' ht
      rw [htk] at h3
      have h7 : t'.len = 1 := tok_len h3 h6
      have h8 : t' = ⟨.sym .caret, 1⟩ := by cases t'; simp at *; exact ⟨htk, h7⟩
      have he : ({ p.input with lexer := l } : Input).eat.1 = some ⟨.sym .caret, 1⟩ := by
        apply eat_of_peeked
        rw [← h8, ← ht]
        exact hpk.tok
      have hate := hi.eat_some hc he
      unfold IP.footnoteLabel
      simp only
      rw [he]
      simp only [dassert, beq_self_eq_true, if_true, Bind.bind, Except.bind]
      generalize hj : ({ p.input with lexer := l } : Input).eat.2 = j at *
      have hjs := hate.span
      have hjl := hate.line
      have hja := hate.ahead
      simp only at hjs hjl hja
      have hne := h.ne
      have hq := h.q
      have htx : sliceOf c.src j.span = b! "[^" := by
        have e1 : sliceOf c.src ⟨p.input.span.stop, p.input.span.stop + 1⟩ = b! "^" := by
          rw [h7, slice_take (by have := hate.inp.stop; rw [hjl, hjs] at this; exact this)] at h3
          exact h3
        have e2 := hbr hk
        have := hate.inp.len hc
        have := hate.inp.stop
        rw [hjs] at this
        rw [hjs]
        simp only at this ⊢
        rw [← slice_append (b := p.input.span.stop) (by omega) (by omega) (by omega), e1, e2]
        rfl
      have hm2 : Mid c { p with input := j } t := by
        refine ⟨hate.inp, h.attr, ?_, h.evs, h.store, h.last, ?_, ?_, ?_, ?_, fun h' => absurd hk h', fun _ => .inr htx, ?_, fun h' => ?_, .none hv, fun h' => by rw [hk] at h'; cases h'⟩
        · simp only; rw [hjs]; exact h.queue.move rfl rfl (mem_lines hjl hja)
        · simp only; rw [hjs]; exact h.pot
        · simp only; rw [hjs]; simp only; omega
        · simp only; rw [hjs]; simp only; omega
        · simp only; rw [hja]; exact h.al
        · simp only; rw [hjl, hjs]; exact h.line
        · rw [hk] at h'; simp at h'
      rw [hate.inp.rem.ahead]
      simp only
      split
      · rename_i hs
        obtain ⟨g1, g2, g3⟩ := scanFootnote_ok hs
        have hlen := hate.inp.len hc
        rw [slice_length hlen] at g1
        rw [slice_take (by omega)] at g3
        exact (pushNamed_ok hc hm2 hv (hate.next (by simp)) (by decide) g2 .footnoteReference trivial ⟨by simp only; rw [htx], g3⟩).mono (fun r hr => hr.mono (fun _ h => h.elim))
      · exact ⟨hm2, hv⟩
    · exact ⟨hm, hv⟩
  · exact ⟨h, hv⟩

/-! ## Links -/

theorem textSpec_ok {src : Bytes} {es : List Event} (hes : ∀ e ∈ es, SpanOk src e.span) (spec : Bytes) {sp : Span} (hsp : SpanOk src sp) :
    textSpec src spec sp es = .ok (spec ++ sliceOf src sp ++ linkText src es) := by
  induction es generalizing spec sp with
  | nil => unfold textSpec; rw [hsp.slice]; simp only [linkText_nil, List.append_nil]; rfl
  | cons e es ih =>
    have he := hes e (by simp)
    have ih' := fun spec {sp : Span} (h : SpanOk src sp) => ih (fun x hx => hes x (by simp [hx])) spec h
    unfold textSpec
    split
    · rename_i hlt
      split
      · rename_i hbr
        rw [hsp.slice]
        refine (ih' _ he.at_stop).trans ?_
        have : evText src e = b! " " := by rcases hbr with h | h <;> simp [evText, h]
        have h0 : sliceOf src ⟨e.span.stop, e.span.stop⟩ = [] := by simp [sliceOf]
        rw [linkText_cons, this, h0]
        simp
      · rename_i hbr
        have hev : evText src e = sliceOf src e.span := by
          unfold isLinkText at hlt
          unfold evText
          split at hlt
          · rename_i hk; rw [hk]
          · cases hlt
          · rename_i a hne hk
            rw [hk] at hbr ⊢
            cases a <;> first
              | rfl
              | exact absurd (.inl rfl) hbr
              | exact absurd (.inr rfl) hbr
              | exact absurd rfl hne
          · cases hlt
        split
        · rename_i heq
          have h1 := hsp.le
          have h2 := he.le
          refine (ih' spec (sp := ⟨sp.start, e.span.stop⟩) ⟨by simp only; omega, he.len, hsp.bs, he.be⟩).trans ?_
          rw [linkText_cons, hev, ← slice_append (b := sp.stop) h1 (by omega) he.len]
          simp only [List.append_assoc]
          rw [show sliceOf src ⟨sp.stop, e.span.stop⟩ = sliceOf src e.span by rw [heq]]
        · rw [hsp.slice]
          refine (ih' _ he).trans ?_
          rw [linkText_cons, hev]
          simp
    · rename_i hlt
      rw [ih' _ hsp]
      have : evText src e = [] := by
        unfold isLinkText at hlt
        unfold evText
        split at hlt
        · simp at hlt
        · rename_i hk; rw [hk]
        · simp at hlt
        · rename_i h1 h2 h3
          split
          · rename_i hk; exact absurd hk h1
          · rename_i hk; exact absurd hk (h3 _)
          · rename_i hk; exact absurd hk (h3 _)
          · rfl
          · rename_i a _ _ _ hk; exact absurd hk (h3 a)
          · rfl
      rw [linkText_cons, this]
      simp

theorem intercalate_snoc (sep : Bytes) {parts : List Bytes} (h : parts ≠ []) (s : Bytes) :
    sep.intercalate (parts ++ [s]) = sep.intercalate parts ++ sep ++ s := by
  induction parts with
  | nil => exact absurd rfl h
  | cons p ps ih =>
    cases ps with
    | nil => simp [List.intercalate]
    | cons q qs =>
      have := ih (by simp)
      simp only [List.intercalate, List.cons_append, List.intersperse_cons₂, List.flatten_cons, List.append_assoc] at this ⊢
      rw [this]

/-- What was put together from `base`. -/
def JoinedSo (sep base spec : Bytes) (fp : Bool) : Prop := ∃ parts : List Bytes, spec = sep.intercalate parts ∧ (fp = true ↔ parts = []) ∧ parts.flatten.Sublist base

/-- What is between the lines of a link specification. -/
def specSep (inl : Bool) : Bytes := if inl then [] else b! " "

theorem appendSpec_joined {inl : Bool} {base spec : Bytes} {fp : Bool} (ss : List Bytes) (h : JoinedSo (specSep inl) base spec fp) :
    JoinedSo (specSep inl) (base ++ ss.flatten) (appendSpec inl spec fp ss).1 (appendSpec inl spec fp ss).2 := by
  induction ss generalizing base spec fp with
  | nil => simpa [appendSpec] using h
  | cons s ss ih =>
    unfold appendSpec
    split
    · rename_i he
      have : s = [] := by simpa using he
      subst this
      simpa using ih h
    · obtain ⟨parts, h1, h2, h3⟩ := h
      have := ih (base := base ++ s) (spec := (if !inl && !fp then spec ++ b! " " else spec) ++ s) (fp := false) ⟨parts ++ [s], ?_, by simp, ?_⟩
      · simpa using this
      · cases hp : parts with
        | nil =>
          have : fp = true := h2.2 hp
          subst hp
          rw [h1, this]
          simp [List.intercalate]
        | cons p ps =>
          rw [← hp, intercalate_snoc _ (by rw [hp]; simp)]
          have : fp = false := by
            cases fp with
            | false => rfl
            | true => rw [h2.1 rfl] at hp; cases hp
          rw [this, h1]
          cases inl <;> simp [specSep]
      · rw [List.flatten_append]
        simpa using h3.append (List.Sublist.refl s)

theorem splitLines_sub (cur s : Bytes) : (splitLines cur s).flatten.Sublist (cur ++ s) := by
  induction s generalizing cur with
  | nil => simp [splitLines]
  | cons x s ih =>
    unfold splitLines
    split
    · have := (ih []).trans (List.sublist_cons_self x s)
      simpa using (List.Sublist.refl cur).append this
    · simpa using ih (cur ++ [x])

theorem JoinedSo.mono {sep a b spec : Bytes} {fp : Bool} (h : JoinedSo sep a spec fp) (hs : a.Sublist b) : JoinedSo sep b spec fp := by
  obtain ⟨parts, h1, h2, h3⟩ := h
  exact ⟨parts, h1, h2, h3.trans hs⟩

theorem multilineSpec_joined {src : Bytes} {inl : Bool} {es : List Event} {hi : Nat} {base spec s : Bytes} {fp : Bool} {sp : Span} (hsp : SpanOk src sp)
    (hch : Chain src sp.stop (es.map (·.span)) hi) (hhi : hi ≤ src.length) (hj : JoinedSo (specSep inl) base spec fp)
    (h : multilineSpec src inl spec fp sp es = .ok s) : Joined (specSep inl) (base ++ sliceOf src ⟨sp.start, hi⟩) s := by
  induction es generalizing base spec fp sp with
  | nil =>
    unfold multilineSpec at h
    rw [hsp.slice] at h
    simp only [Bind.bind, Except.bind, Pure.pure, Except.pure, Except.ok.injEq] at h
    subst h
    obtain ⟨parts, h1, -, h3⟩ := appendSpec_joined (splitLines [] (sliceOf src sp)) hj
    refine ⟨parts, h1, h3.trans ((List.Sublist.refl base).append ((splitLines_sub [] _).trans ?_))⟩
    rw [List.nil_append, ← slice_append (b := sp.stop) hsp.le hch.le hhi]
    exact List.sublist_append_left _ _
  | cons e es ih =>
    rw [List.map_cons] at hch
    cases hch with
    | cons c1 c2 c3 =>
      have hle := hsp.le
      have hle2 := c2.le
      have hle3 := c3.le
      unfold multilineSpec at h
      split at h
      · exact ih (sp := ⟨sp.start, e.span.stop⟩) ⟨by simp only; omega, c2.len, hsp.bs, c2.be⟩ c3 hj h
      · rw [hsp.slice] at h
        simp only [Bind.bind, Except.bind] at h
        obtain ⟨parts, h1, h3⟩ := ih c2 c3 (appendSpec_joined (splitLines [] (sliceOf src sp)) hj) h
        refine ⟨parts, h1, h3.trans ?_⟩
        rw [List.append_assoc]
        refine (List.Sublist.refl base).append ?_
        rw [← slice_append (src := src) (a := sp.start) (b := sp.stop) (c := hi) hle (by omega) hhi]
        refine ((splitLines_sub [] _).trans (by simp)).append ?_
        rw [← slice_append (src := src) (a := sp.stop) (b := e.span.start) (c := hi) c1 (by omega) hhi]
        exact List.sublist_append_right _ _

theorem Chain.append {src : Bytes} {lo mid hi : Nat} {a b : List Span} (h : Chain src lo a mid) (h2 : Chain src mid b hi) : Chain src lo (a ++ b) hi := by
  induction h with
  | nil h =>
    cases h2 with
    | nil h3 => exact .nil (by omega)
    | cons h3 h4 h5 => exact .cons (by omega) h4 h5
  | cons h3 h4 _ ih => exact .cons h3 h4 (ih h2)

/-- Without attributes, complete events follow each other. -/
theorem Bal.chain {N : Notes} {lo hi : Nat} {es : List Event} (h : Bal N lo es hi) (hes : ∀ e ∈ es, SpanOk N.src e.span) (ha : ∀ a ∈ N.ats, GoodAttrs a)
    {lo' hi' : Nat} (h1 : lo' ≤ lo) (h2 : hi ≤ hi') (hb : c! '{' ∉ sliceOf N.src ⟨lo', hi'⟩) : Chain N.src lo (es.map (·.span)) hi := by
  have brace : ∀ {sp : Span} {b s : Bytes} {own : Attr.Attributes}, lo' ≤ sp.start → sp.stop ≤ hi' → sliceOf N.src sp = b ++ s → WrittenAttrs s own → own ∈ N.ats → False := by
    intro sp b s own g1 g2 g3 g4 g5
    rcases g4 with ⟨_, g4⟩ | ⟨g4, _⟩
    · exact (ha own g5).1 g4
    · apply hb
      refine slice_mono (a := sp.start) (b := sp.stop) ?_ g1 g2
      rw [g3]
      cases s with
      | nil => cases g4
      | cons x s => simp at g4; simp [g4]
  induction h generalizing lo' with
  | nil h => exact .nil h
  | @leaf lo hi e es p q r ih =>
    have := q.le
    exact .cons q.1 (hes e (by simp)) (ih (fun e he => hes e (by simp [he])) (by omega) h2 hb brace)
  | @word lo hi a e es i p q r s t u ih =>
    exfalso
    obtain ⟨own, t1, t2⟩ := t
    have := u.le
    exact brace (sp := a.span) (b := []) (by have := s.1; omega) (by omega) rfl t2 (List.mem_of_getElem? t1)
  | @node lo hi o F x c es p q r s t w u ih1 ih2 =>
    have h3 := r.le
    have h4 := s.le
    have h5 := u.le
    rw [List.map_cons, List.map_append, List.map_cons]
    refine .cons r.1 (hes o (by simp)) (Chain.append (ih1 (fun e he => hes e (by simp [he])) (by omega) (by omega) hb brace) (.cons (Nat.le_refl _) (hes x (by simp)) ?_))
    exact ih2 (fun e he => hes e (by simp [he])) (by omega) h2 hb brace
  | @attr lo hi a o F x c es i own p q r s t u v w z ih1 ih2 =>
    exfalso
    obtain ⟨b, s', w1, w2, w3⟩ := w
    have h3 := s.le
    have h4 := t.le
    have h5 := z.le
    exact brace (sp := x.span) (by omega) (by omega) w1 w3 (List.mem_of_getElem? v)

theorem multilineSpec_ok {src : Bytes} {es : List Event} (hes : ∀ e ∈ es, SpanOk src e.span) (inl : Bool) (spec : Bytes) (fp : Bool) {sp : Span}
    (hsp : SpanOk src sp) : ∃ s, multilineSpec src inl spec fp sp es = .ok s := by
  induction es generalizing spec fp sp with
  | nil => unfold multilineSpec; rw [hsp.slice]; exact ⟨_, rfl⟩
  | cons e es ih =>
    have he := hes e (by simp)
    have ih' := fun spec fp {sp : Span} (h : SpanOk src sp) => ih (fun x hx => hes x (by simp [hx])) spec fp h
    unfold multilineSpec
    split
    · rename_i heq
      refine ih' _ _ ⟨?_, he.len, hsp.bs, he.be⟩
      have := hsp.le; have := he.le; simp only; omega
    · rw [hsp.slice]; exact ih' _ _ he

/-- A line ahead comes after a line break. -/
theorem InpOk.lineOk {i : Input} (h : InpOk c i) (hc : c.Ok) {N : Notes} (hs : N.src = c.src) (hl : N.lines = i.spanLine :: i.ahead) {y : Span} (hy : y.start < y.stop)
    (hst : y.stop ≤ i.spanLine.stop) (hls : i.spanLine.start ≤ y.start ∨ Adjacent c.src) {x : UInt8} (hx : c.src[y.stop - 1]? = some x) (hn : x ≠ c! '\n') : LineOk N y := by
  intro l hm hne
  rw [hl] at hm
  rw [hs]
  rcases List.mem_cons.1 hm with rfl | hm
  · exact hls.imp_right .inr
  · right; left
    obtain ⟨c1, c2, c3⟩ := h.chain.mem hm
    have hp := (List.pairwise_cons.1 h.nl.1).1 l hm (by omega)
    have := c2.len
    rcases hp with hp | ⟨hp, hq⟩
    · omega
    · refine mem_slice hq ?_ (by omega)
      have : y.stop ≠ i.spanLine.stop := by
        intro he
        rw [he, hq] at hx
        injection hx with hx
        exact hn hx.symm
      omega

/-- The events of a link that is about to be closed. -/
theorem closeLink_ok (hc : c.Ok) {p : IP} {t : Lex.Token} (h : Mid c p t) {os : List (Opener × Nat)} {e n : Nat} {img inl : Bool}
    (hl : Lay (nts c p) ((.link e img inl, n) :: os) c.lo p.events p.input.span.start) (hv : p.verbatim = none)
    (htx : sliceOf c.src p.input.span = if inl then b! ")" else b! "]") (hone : p.input.span.stop = p.input.span.start + 1) :
    ∃ r, ({ p with openers := os } : IP).closeLink n e img inl = .ok r ∧ Pre c r (.container (e - 1)) p.input.span.stop ∧
      1 ≤ e ∧ r.input = p.input := by
  obtain ⟨es, hes⟩ : ∃ es, p.events = es := ⟨_, rfl⟩
  rw [hes] at hl
  cases hl with
  | norm h1 => exact absurd rfl (h1 _ _ _)
  | @link _ _ A m ph op B1 x y B2 _ _ _ _ _ p1 p2 p3 p4 p5 p6 p7 p8 p9 p10 p11 p12 pl p13 =>
    have hmem : ∀ z, z ∈ A ++ ph :: op :: (B1 ++ x :: y :: B2) → EvOk c.src p.storeCowstrs.length p.storeAttributes.length z := by
      intro z hz; exact h.evs z (by rw [hes]; exact hz)
    have hy := hmem y (by simp)
    have hx := hmem x (by simp)
    have hop := hmem op (by simp)
    have hph := hmem ph (by simp)
    have hsp := h.inp.spanOk hc
    have hidx : idx p.events n = .ok y := by
      have : A ++ ph :: op :: (B1 ++ x :: y :: B2) = (A ++ ph :: op :: (B1 ++ [x])) ++ y :: B2 := by simp
      rw [hes, this, idx_at (by simp [p2]; omega)]
    have hle : y.span.stop ≤ p.input.span.start := p13.le
    have hnl : y.span.start < p.input.spanLine.start → c! '\n' ∈ sliceOf c.src ⟨y.span.stop, p.input.span.start⟩ ∨ Adjacent c.src := by
      intro hlt
      rcases h.line with hli | hli
      · have hst := h.inp.stop
        have hne := h.ne
        rcases pl.line p.input.spanLine (by simp [nts]) (by omega) with h1 | h1 | h1
        · omega
        · exact .inl (slice_mono h1 (Nat.le_refl _) hli)
        · exact .inr h1
      · exact .inr hli
    have hspec : ∃ s, ({ p with openers := os } : IP).linkSpec n e inl = .ok s ∧ ((inl = true ∨ sliceOf c.src ⟨y.span.stop, p.input.span.start⟩ ≠ []) →
        c! '\n' ∉ sliceOf c.src ⟨y.span.stop, p.input.span.start⟩ → ¬ Adjacent c.src → s = sliceOf c.src ⟨y.span.stop, p.input.span.start⟩) ∧
        (inl = false → sliceOf c.src ⟨y.span.stop, p.input.span.start⟩ = [] → s = linkText c.src B1) ∧
        ((inl = true ∨ sliceOf c.src ⟨y.span.stop, p.input.span.start⟩ ≠ []) → c! '{' ∉ sliceOf c.src ⟨y.span.stop, p.input.span.start⟩ →
          Joined (specSep inl) (sliceOf c.src ⟨y.span.stop, p.input.span.start⟩) s) := by
      unfold IP.linkSpec
      simp only
      rw [hidx]
      simp only [Bind.bind, Except.bind]
      rw [h.inp.src]
      split
      · rw [csub_ok (by omega)]
        simp only
        rw [csub_ok (by omega)]
        simp only
        rename_i hem
        simp only [Bool.and_eq_true, Bool.not_eq_true'] at hem
        have hs := textSpec_ok (src := c.src) (es := (p.events.drop (e + 1)).take (n - e - 2)) (fun z hz => (h.evs z (List.mem_of_mem_drop (List.mem_of_mem_take hz))).span) []
          (sp := ⟨0, 0⟩) (.empty (by omega) (by simpa using hc.bd))
        have hno : (inl = true ∨ sliceOf c.src ⟨y.span.stop, p.input.span.start⟩ ≠ []) → False := by
          rintro (h1 | h1)
          · rw [hem.2] at h1; cases h1
          · apply h1
            have := hem.1
            simp [Span.isEmpty] at this
            simp [sliceOf, show p.input.span.start - y.span.stop = 0 by omega]
        refine ⟨_, hs, fun h1 => (hno h1).elim, fun _ _ => ?_, fun h1 => (hno h1).elim⟩
        · have hB : (p.events.drop (e + 1)).take (n - e - 2) = B1 := by
            rw [hes, show A ++ ph :: op :: (B1 ++ x :: y :: B2) = (A ++ [ph, op]) ++ (B1 ++ x :: y :: B2) by simp,
              List.drop_append, List.drop_of_length_le (by simp; omega), show e + 1 - (A ++ [ph, op]).length = 0 by simp; omega,
              show n - e - 2 = B1.length by omega]
            simp
          rw [hB]
          simp [sliceOf]
      · rename_i hnem
        have hnem' : inl = false → sliceOf c.src ⟨y.span.stop, p.input.span.start⟩ ≠ [] := by
          rintro rfl h0
          apply hnem
          have := congrArg List.length h0
          rw [slice_length (by have := hsp.le; have := hsp.len; omega)] at this
          simp at this
          simp [Span.isEmpty]
          omega
        split
        · rename_i hlt
          obtain ⟨s, hs⟩ := multilineSpec_ok (es := p.events.drop (n + 1)) (fun z hz => (h.evs z (List.mem_of_mem_drop hz)).span) inl [] true hy.span.at_stop
          refine ⟨s, hs, ?_, fun h0 h1 => absurd h1 (hnem' h0), ?_⟩
          rotate_left
          · intro _ hb
            have hB : p.events.drop (n + 1) = B2 := by
              rw [hes, show A ++ ph :: op :: (B1 ++ x :: y :: B2) = (A ++ ph :: op :: (B1 ++ [x, y])) ++ B2 by simp,
                List.drop_append, List.drop_of_length_le (by simp; omega), show n + 1 - (A ++ ph :: op :: (B1 ++ [x, y])).length = 0 by simp; omega]
              simp
            rw [hB] at hs
            have hch := p13.chain (fun z hz => (hmem z (by simp [hz])).span) h.store (Nat.le_refl _) (Nat.le_refl _) hb
            have := multilineSpec_joined (base := []) hy.span.at_stop hch (by have := hsp.le; have := hsp.len; omega) ⟨[], by simp [List.intercalate], by simp, by simp⟩ hs
            simpa using this
          intro _ h1 h2
          rcases hnl hlt with h3 | h3
          · exact absurd h3 h1
          · exact absurd h3 h2
        · have : strSlice c.src y.span.stop p.input.span.start = _ := strSlice_ok hle (by have := hsp.le; have := hsp.len; omega) hy.span.be h.inp.bs
          exact ⟨_, this, fun _ _ _ => rfl, fun h0 h1 => absurd h1 (hnem' h0), fun _ _ => ⟨[sliceOf c.src ⟨y.span.stop, p.input.span.start⟩], (List.append_nil (sliceOf c.src ⟨y.span.stop, p.input.span.start⟩)).symm, by simp⟩⟩
    obtain ⟨spec, hspec, hspec2, hspec3, hspec4⟩ := hspec
    generalize hcon : linkContainer img inl p.storeCowstrs.length = k
    have hk : StoreOk (p.storeCowstrs ++ [spec]).length k := by
      rw [← hcon]
      cases img <;> cases inl <;> simp [linkContainer, StoreOk]
    refine ⟨{ p with
      openers := os
      storeCowstrs := p.storeCowstrs ++ [spec]
      events := A ++ ph :: { op with kind := .enter k } :: (B1 ++ [⟨.exit k, ⟨x.span.start, p.input.span.start + 1⟩⟩]) }, ?_, ?_, by omega, rfl⟩
    · unfold IP.closeLink
      rw [hspec]
      simp only [Bind.bind, Except.bind]
      have h1 : setKind p.events e (.enter k) = .ok (A ++ ph :: { op with kind := .enter k } :: (B1 ++ x :: y :: B2)) := by
        have : A ++ ph :: op :: (B1 ++ x :: y :: B2) = (A ++ [ph]) ++ op :: (B1 ++ x :: y :: B2) := by simp
        rw [hes, this, setKind_at (by simp [p1])]
        simp
      rw [hcon, h1]
      simp only
      rw [csub_ok (by omega)]
      simp only
      have happ : A ++ ph :: ({ op with kind := .enter k } : Event) :: (B1 ++ x :: y :: B2) = (A ++ ph :: ({ op with kind := .enter k } : Event) :: B1) ++ x :: y :: B2 := by simp
      rw [happ, idx_at (by simp; omega)]
      simp only
      rw [set_at (by simp; omega)]
      simp only [Pure.pure, Except.pure]
      congr 2
      rw [List.take_append, List.take_of_length_le (by simp; omega)]
      have : n - (A ++ ph :: ({ op with kind := .enter k } : Event) :: B1).length = 1 := by simp; omega
      rw [this]
      simp
    · have hpot := h.pot
      rw [pot_none hv, hes] at hpot
      have hx8 := p8.le
      have hx10 := p10
      have hy12 := p12.1
      have hxsp : SpanOk c.src ⟨x.span.start, p.input.span.start + 1⟩ := by
        rw [← hone]
        exact ⟨by simp only; have := hy.span.le; omega, hsp.len, hx.span.bs, h.inp.be⟩
      have hle' : (nts c p).Le ⟨c.src, p.storeCowstrs ++ [spec], p.storeAttributes, p.input.spanLine :: p.input.ahead⟩ := by
        refine ⟨rfl, ?_, fun _ _ h => h⟩
        intro i v hi
        have hi : p.storeCowstrs[i]? = some v := hi
        show (p.storeCowstrs ++ [spec])[i]? = some v
        rw [List.getElem?_append_left (List.getElem?_eq_some_iff.1 hi).1]; exact hi
      have hend : sliceOf c.src ⟨x.span.start, p.input.span.start + 1⟩ =
          (b! "]" ++ if inl then b! "(" else b! "[") ++ sliceOf c.src ⟨y.span.stop, p.input.span.start⟩ ++ (if inl then b! ")" else b! "]") := by
        have e1 : sliceOf c.src ⟨x.span.start, x.span.stop⟩ = b! "]" := pl.tx
        have e2 : sliceOf c.src ⟨y.span.start, y.span.stop⟩ = _ := pl.ty
        have e3 : sliceOf c.src ⟨p.input.span.start, p.input.span.stop⟩ = _ := htx
        have e4 := pl.adj
        have := hsp.len
        have hyl := hy.span.le
        have hxl := hx.span.le
        rw [← hone, ← slice_append (b := p.input.span.start) (by omega) (by omega) (by omega), e3, ← slice_append (b := y.span.stop) (by omega) (by omega) (by omega),
          ← slice_append (b := x.span.stop) (by omega) (by omega) (by omega), e1, e4, e2]
      have hget : (p.storeCowstrs ++ [spec])[p.storeCowstrs.length]? = some spec := by simp
      have hdel : ∀ b, Delim c.src (p.storeCowstrs ++ [spec]) (linkText c.src B1) k (sliceOf c.src op.span) b (sliceOf c.src ⟨x.span.start, p.input.span.start + 1⟩) := by
        intro b
        have htop := pl.top
        rw [← hcon, hend]
        cases inl with
        | true => cases img <;> exact ⟨htop, spec, hget, _, by simp, fun h1 h2 => hspec2 (.inl rfl) h1 h2, fun h1 => hspec4 (.inl rfl) h1⟩
        | false => cases img <;> exact ⟨htop, spec, hget, _, by simp, fun h0 h1 h2 => hspec2 (.inr h0) h1 h2, fun h0 h1 => hspec4 (.inr h0) h1, fun h0 => hspec3 rfl h0⟩
      refine ⟨h.inp, h.attr, hv, ?_, ?_, h.store, ?_, ?_, by have := h.q; omega, h.al⟩
      · refine ⟨A, ph, { op with kind := .enter k }, B1, ⟨.exit k, ⟨x.span.start, p.input.span.start + 1⟩⟩, m, rfl, by omega, p3.mono hle' rfl, p4, p5, p7, p8.mono hle', hxsp.le, ?_, .inl ⟨k, rfl, rfl, hdel _⟩⟩
        simp only; omega
      · intro z hz
        have hm2 : ∀ z, EvOk c.src p.storeCowstrs.length p.storeAttributes.length z → EvOk c.src (p.storeCowstrs ++ [spec]).length p.storeAttributes.length z :=
          fun z hz => hz.mono (by simp) (Nat.le_refl _)
        simp only at hz ⊢
        simp at hz
        rcases hz with hz | rfl | rfl | hz | rfl
        · exact hm2 z (hmem z (by simp [hz]))
        · exact hm2 _ hph
        · exact ⟨hop.span, hk, trivial⟩
        · exact hm2 z (hmem z (by simp [hz]))
        · exact ⟨hxsp, hk, trivial⟩
      · have : ∀ y, A ++ ph :: ({ op with kind := .enter k } : Event) :: (B1 ++ [y]) = (A ++ ph :: ({ op with kind := .enter k } : Event) :: B1) ++ [y] := by intro y; simp
        simp only
        rw [this]
        exact LastOk.append (by simp)
      · rw [pot_none (by exact hv)]
        simp only [weight_append, weight_cons, weight_nil] at hpot ⊢
        have h1 := wt_pos op
        have h2 := wt_pos x
        rw [wt_kind (e := ⟨.enter k, op.span⟩) (.inr (.inr (.inl ⟨_, rfl⟩))), wt_kind (e := ⟨.exit k, _⟩) (.inr (.inr (.inr (.inl ⟨_, rfl⟩))))]
        omega

/-! ## Closing an opener -/

theorem afterClose_ok (hc : c.Ok) {p : IP} {o : Opener} {eAttr : Nat}
    (h : Pre c p (if o = .doubleQuoted ∨ o = .singleQuoted then .word else .container eAttr) p.input.span.stop) (hq : c.q < p.input.span.stop) :
    Sat Never (p.afterClose o eAttr) (Res c (fun _ => False)) := by
  unfold IP.afterClose
  exact afterAttrs_ok hc h hq

/-- The text of tokens that close an opener. -/
theorem closedBy_link {e : Nat} {img inl : Bool} {k : Lex.Kind} (h : (Opener.link e img inl).closedBy k = true) : k = .cls .bracket ∨ k = .cls .paren := by
  cases inl <;> simp [Opener.closedBy] at h <;> simp [h]

theorem closedBy_ne {o : Opener} {k : Lex.Kind} (h : o.closedBy k = true) : k ≠ .opn .bracket := by
  intro hk
  subst hk
  cases o with
  | link e i l => cases l <;> simp [Opener.closedBy] at h
  | strong d => cases d <;> simp [Opener.closedBy] at h
  | emphasis d => cases d <;> simp [Opener.closedBy] at h
  | superscript d => cases d <;> simp [Opener.closedBy] at h
  | subscript d => cases d <;> simp [Opener.closedBy] at h
  | _ => simp [Opener.closedBy] at h

theorem closeText_len {d : Lex.Delimiter} (h : d = .bracket ∨ d = .paren) : d.closeText.length = 1 := by
  rcases h with rfl | rfl <;> rfl

/-- The events of an opener that is about to be closed, and what is known about the new ones. -/
theorem closeNormal_ok (hc : c.Ok) {p : IP} {t : Lex.Token} (h : Mid c p t) {os : List (Opener × Nat)} {o : Opener} {A B : List Event} {ph op : Event} {m : Nat}
    (hes : p.events = A ++ ph :: op :: B) (hA : Lay (nts c p) os c.lo A m) (hph : Ph ph) (hfph : Fits m ph) (hop : op.kind = openerKind o)
    (hfop : Fits ph.span.stop op) (hot : OpenText o (sliceOf c.src op.span)) (hB : Bal (nts c p) op.span.stop B p.input.span.start) (hv : p.verbatim = none) (hno : ∀ a b c, o ≠ .link a b c)
    (hcb : o.closedBy t.kind = true) :
    Sat Never (({ p with openers := os } : IP).closeOpener o A.length (A.length + 1)) (Res c (fun _ => False)) := by
  have hsp := h.inp.spanOk hc
  have hne := h.ne
  have hq := h.q
  have hlen := hsp.len
  have hpot := h.pot
  rw [pot_none hv, hes] at hpot
  simp only [weight_append, weight_cons] at hpot
  have hwph := wt_pos ph
  have hwop := wt_pos op
  have hmem : ∀ z, z ∈ A ++ ph :: op :: B → EvOk c.src p.storeCowstrs.length p.storeAttributes.length z := by
    intro z hz; exact h.evs z (by rw [hes]; exact hz)
  have hset : ∀ k, setKind p.events (A.length + 1) k = .ok (A ++ ph :: { op with kind := k } :: B) := by
    intro k
    have : A ++ ph :: op :: B = (A ++ [ph]) ++ op :: B := by simp
    rw [hes, this, setKind_at (by simp)]
    simp
  unfold IP.closeOpener
  have htext := (h.text (closedBy_ne hcb)).1
  have hdelim : ∀ w k b, DelimEventKind.ofOpener o = .container k → Delim c.src p.storeCowstrs w k (sliceOf c.src op.span) b (sliceOf c.src p.input.span) := by
    intro w k b ho
    cases o with
    | strong d =>
      cases d <;> (simp [DelimEventKind.ofOpener] at ho; simp [Opener.closedBy] at hcb; subst ho; rw [hcb] at htext)
      · exact .inr ⟨hot, htext⟩
      · exact .inl ⟨hot, htext⟩
    | emphasis d =>
      cases d <;> (simp [DelimEventKind.ofOpener] at ho; simp [Opener.closedBy] at hcb; subst ho; rw [hcb] at htext)
      · exact .inr ⟨hot, htext⟩
      · exact .inl ⟨hot, htext⟩
    | superscript d =>
      cases d <;> (simp [DelimEventKind.ofOpener] at ho; simp [Opener.closedBy] at hcb; subst ho; rw [hcb] at htext)
      · exact .inr ⟨hot, htext⟩
      · exact .inl ⟨hot, htext⟩
    | subscript d =>
      cases d <;> (simp [DelimEventKind.ofOpener] at ho; simp [Opener.closedBy] at hcb; subst ho; rw [hcb] at htext)
      · exact .inr ⟨hot, htext⟩
      · exact .inl ⟨hot, htext⟩
    | mark => simp [DelimEventKind.ofOpener] at ho; simp [Opener.closedBy] at hcb; subst ho; rw [hcb] at htext; exact ⟨hot, htext⟩
    | delete => simp [DelimEventKind.ofOpener] at ho; simp [Opener.closedBy] at hcb; subst ho; rw [hcb] at htext; exact ⟨hot, htext⟩
    | insert => simp [DelimEventKind.ofOpener] at ho; simp [Opener.closedBy] at hcb; subst ho; rw [hcb] at htext; exact ⟨hot, htext⟩
    | _ => simp [DelimEventKind.ofOpener] at ho
  have hcont : ∀ k, DelimEventKind.ofOpener o = .container k → StoreOk p.storeCowstrs.length k →
      Sat Never (({ p with openers := os, events := (A ++ ph :: { op with kind := .enter k } :: B) ++ [⟨.exit k, p.input.span⟩] } : IP).afterClose o A.length) (Res c (fun _ => False)) := by
    intro k ho hk
    have hquote : ¬ (o = .doubleQuoted ∨ o = .singleQuoted) := by
      rintro (rfl | rfl) <;> simp [DelimEventKind.ofOpener] at ho
    refine afterClose_ok hc ?_ hq
    rw [if_neg hquote]
    refine ⟨h.inp, h.attr, hv, ?_, ?_, h.store, LastOk.append (by simp), ?_, Nat.le_of_lt hq, h.al⟩
    · exact ⟨A, ph, { op with kind := .enter k }, B, ⟨.exit k, p.input.span⟩, m, by simp, rfl, hA, hph, hfph, hfop, hB, hsp.le, rfl, .inl ⟨k, rfl, rfl, hdelim _ _ _ ho⟩⟩
    · intro z hz
      simp at hz
      rcases hz with hz | rfl | rfl | hz | rfl
      · exact hmem z (by simp [hz])
      · exact hmem _ (by simp)
      · exact ⟨(hmem op (by simp)).span, hk, trivial⟩
      · exact hmem z (by simp [hz])
      · exact ⟨hsp, hk, trivial⟩
    · rw [pot_none (by exact hv)]
      simp only [weight_append, weight_cons, weight_nil]
      rw [wt_kind (e := ⟨.enter k, op.span⟩) (.inr (.inr (.inl ⟨_, rfl⟩))), wt_kind (e := ⟨.exit k, _⟩) (.inr (.inr (.inr (.inl ⟨_, rfl⟩))))]
      omega
  cases ho : DelimEventKind.ofOpener o with
  | container k =>
    simp only
    rw [hset]
    simp only [Bind.bind, Except.bind]
    refine hcont k ho ?_
    cases o <;> simp [DelimEventKind.ofOpener] at ho <;> subst ho <;> trivial
  | quote q =>
    have hquote : o = .doubleQuoted ∨ o = .singleQuoted := by
      cases o <;> simp [DelimEventKind.ofOpener] at ho <;> simp
    simp only
    rw [hset]
    simp only [Bind.bind, Except.bind]
    refine afterClose_ok hc ?_ hq
    rw [if_pos hquote]
    refine ⟨h.inp, h.attr, hv, ?_, ?_, h.store, LastOk.append (by simp), ?_, Nat.le_of_lt hq, h.al⟩
    · show Lay (nts c p) os c.lo ((A ++ ph :: { op with kind := .atom (.quote q true) } :: B) ++ [⟨.atom (.quote q false), p.input.span⟩]) p.input.span.stop
      have : Bal (nts c p) m (ph :: { op with kind := .atom (.quote q true) } :: (B ++ [⟨.atom (.quote q false), p.input.span⟩])) p.input.span.stop :=
        .leaf (.inr (.inl hph)) hfph (.leaf (.inr (.inr ⟨_, rfl⟩)) hfop (hB.append (.one (.inr (.inr ⟨_, rfl⟩)) ⟨Nat.le_refl _, hsp.le⟩ (Nat.le_refl _))))
      have := hA.append this
      simpa using this
    · intro z hz
      simp at hz
      rcases hz with hz | rfl | rfl | hz | rfl
      · exact hmem z (by simp [hz])
      · exact hmem _ (by simp)
      · refine ⟨(hmem op (by simp)).span, trivial, ?_⟩
        rcases hquote with rfl | rfl <;> (simp [DelimEventKind.ofOpener] at ho; subst ho; exact hot)
      · exact hmem z (by simp [hz])
      · refine ⟨hsp, trivial, ?_⟩
        rcases hquote with rfl | rfl <;> simp [DelimEventKind.ofOpener] at ho <;> subst ho <;> simp [Opener.closedBy] at hcb <;> rcases hcb with hcb | hcb <;> rw [hcb] at htext
        · exact .inl htext
        · exact .inr htext
        · exact .inl htext
        · exact .inr (.inl htext)
    · rw [pot_none (by exact hv)]
      simp only [weight_append, weight_cons, weight_nil]
      rw [wt_kind (e := ⟨.atom _, op.span⟩) (.inr (.inr (.inr (.inr ⟨_, rfl⟩)))), wt_kind (e := ⟨.atom _, p.input.span⟩) (.inr (.inr (.inr (.inr ⟨_, rfl⟩))))]
      omega
  | link a b d =>
    exfalso
    cases o <;> simp [DelimEventKind.ofOpener] at ho
    exact hno _ _ _ rfl
  | span ty =>
    have hospan : o = .span ty := by
      cases o <;> simp [DelimEventKind.ofOpener] at ho
      rw [ho]
    have hopstr : op.kind = .str := by rw [hop, hospan]; rfl
    have hcbr : sliceOf c.src p.input.span = b! "]" := by
      rw [hospan] at hcb
      simp [Opener.closedBy] at hcb
      rw [hcb] at htext
      exact htext
    have hso : SpanOpen (sliceOf c.src op.span) := by
      rw [hospan] at hot
      cases ty
      · exact .inr hot
      · exact .inl hot
    simp only
    obtain ⟨l, hl, hpk⟩ := h.inp.peek
    have h2 : p.input.peekKind.2 = { p.input with lexer := l } := hl
    rw [h2]
    have hi := h.inp.lex hpk.rem
    -- a link may follow
    have hlink : ∀ d, (d = .bracket ∨ d = .paren) → (p.input.peekKind).1 = some (.opn d) →
        Adv c (({ p with openers := os, input := { p.input with lexer := l } } : IP).openLink ty (A.length + 1) d) := by
      intro d hdd hd
      obtain ⟨t', ht, htk⟩ := peekKind_some hd
      have hri := hi.reset
      have he : ({ p.input with lexer := l } : Input).resetSpan.eat.1 = some t' := by
        apply eat_of_peeked
        rw [← ht]
        exact hpk.tok
      have hate := hri.eat_some hc he
      unfold IP.openLink
      simp only
      generalize hj : ({ p.input with lexer := l } : Input).resetSpan.eat.2 = j at *
      have hjs := hate.span
      have hja := hate.ahead
      have hjl := hate.line
      simp only [Input.resetSpan] at hjs hja hjl
      have hpos := hate.pos
      have hjsp := hate.inp.spanOk hc
      have hjlen := hjsp.len
      have hstart : j.span.start = p.input.span.stop := by rw [hjs]
      have hstop : j.span.stop = p.input.span.stop + t'.len := by rw [hjs]
      have hjst := hate.inp.stop
      rw [hjl] at hjst
      have hjt : sliceOf c.src j.span = d.openText := by
        have := hate.text.1
        rw [htk] at this
        simp only [Input.resetSpan] at this
        rw [slice_take (by omega)] at this
        rw [hjs]
        exact this
      have hjl1 := text_slice hjt hjsp
      have hone : d.openText.length = 1 := by rcases hdd with rfl | rfl <;> rfl
      have hjx : c.src[j.span.stop - 1]? = d.openText.head? := by
        rw [← hjt, show j.span = ⟨j.span.start, j.span.stop⟩ from rfl, slice_head (by omega)]
        congr 1; simp only; omega
      have hlineOk : LineOk ⟨c.src, p.storeCowstrs, p.storeAttributes, j.spanLine :: j.ahead⟩ j.span := by
        have hls : j.spanLine.start ≤ j.span.start ∨ Adjacent c.src := by rw [hjl, hstart]; exact h.inp.ls
        rcases hdd with rfl | rfl
        · exact hate.inp.lineOk hc rfl rfl (by omega) (by rw [hjl]; exact hjst) hls (x := c! '[') hjx (by decide)
        · exact hate.inp.lineOk hc rfl rfl (by omega) (by rw [hjl]; exact hjst) hls (x := c! '(') hjx (by decide)
      have happ : ∀ a b : Event, p.events ++ [a, b] = A ++ ph :: op :: (B ++ a :: b :: []) := by intro a b; rw [hes]; simp
      refine ⟨⟨hate.inp, h.attr, ?_, ?_, h.store, ?_, ?_, .none hv⟩, by simp only; omega, by simp only; rw [hja]; exact h.al⟩
      · rw [hv]
        simp only
        rw [happ]
        refine Lay.link rfl ?_ (hA.move rfl rfl (mem_lines hjl hja)) hph hfph hopstr hfop (x := ⟨.str, p.input.span⟩) (y := ⟨.str, j.span⟩) (hB.move rfl rfl) rfl hsp.le rfl ⟨by simp only; omega, hjsp.le⟩
          ⟨?_, hcbr, ?_, hstart.symm, hlineOk⟩ (.nil (Nat.le_refl _))
        · rw [hes]; simp; omega
        · rw [hospan] at hot
          cases ty <;> exact hot
        · show sliceOf c.src j.span = _
          rw [hjt]
          rcases hdd with rfl | rfl <;> rfl
      · intro z hz
        simp only at hz ⊢
        simp at hz
        rcases hz with hz | rfl | rfl
        · exact h.evs z hz
        · exact ⟨hsp, trivial, trivial⟩
        · exact ⟨hjsp, trivial, trivial⟩
      · intro z hz
        simp at hz
        subst hz
        refine ⟨by simp, fun _ => ?_⟩
        left; simp only; omega
      · rw [pot_none (by exact hv)]
        simp only [weight_append, weight_cons, weight_nil, hes]
        rw [wt_str (e := ⟨.str, p.input.span⟩) rfl, wt_str (e := ⟨.str, j.span⟩) rfl]
        simp only [Span.len]
        omega
    split
    · rename_i hb; exact hlink _ (.inl rfl) hb
    · split
      · rename_i hb; exact hlink _ (.inr rfl) hb
      · refine afterClose_ok hc ?_ hq
        rw [if_neg (by rw [hospan]; simp)]
        refine ⟨hi, h.attr, hv, ?_, ?_, h.store, ?_, ?_, Nat.le_of_lt hq, h.al⟩
        · refine ⟨A, ph, op, B, ⟨.str, p.input.span⟩, m, ?_, rfl, hA.move rfl rfl (mem_lines rfl rfl), hph, hfph, hfop, hB.move rfl rfl, hsp.le, rfl, .inr ⟨hopstr, rfl, hne, hso, hcbr⟩⟩
          simp [IP.push, IP.pushSp, hes]
        · exact EvsOk.push (p := { p with openers := os, input := { p.input with lexer := l } }) h.evs ⟨hsp, trivial, trivial⟩
        · exact LastOk.append (fun _ => .inl hne)
        · rw [pot_none (by exact hv)]
          simp only [IP.push, IP.pushSp, weight_append, weight_cons, weight_nil, hes]
          rw [wt_str (e := ⟨.str, p.input.span⟩) rfl]
          simp only [Span.len]
          omega

theorem tryClose_ok (hc : c.Ok) {p : IP} {t : Lex.Token} (h : Mid c p t) (hv : p.verbatim = none) :
    Sat Never (p.tryClose t) (Res c (fun p' => p' = p)) := by
  have hlay : Lay (nts c p) p.openers c.lo p.events p.input.span.start := by have := h.queue; rw [hv] at this; exact this
  unfold IP.tryClose
  cases hf : findOpener t.kind p.openers with
  | none => exact rfl
  | some r =>
    obtain ⟨⟨o, n⟩, below⟩ := r
    obtain ⟨hl, hcb⟩ := hlay.find hf
    simp only
    obtain ⟨htext, htl⟩ := h.text (closedBy_ne hcb)
    have hempty : 1 ≤ p.events.length := by
      generalize p.events = es at hl
      cases hl <;> simp <;> omega
    by_cases hlk : ∃ a b d, o = .link a b d
    · obtain ⟨a, b, d, rfl⟩ := hlk
      have hone : p.input.span.stop = p.input.span.start + 1 := by
        rcases closedBy_link hcb with hk | hk <;> rw [hk] at htext <;>
          (have := text_slice htext (h.inp.spanOk hc); simpa [Lex.Delimiter.closeText] using this)
      have htx : sliceOf c.src p.input.span = if d then b! ")" else b! "]" := by
        cases d <;> (simp [Opener.closedBy] at hcb; rw [hcb] at htext; exact htext)
      obtain ⟨r, r1, r2, r3, r4⟩ := closeLink_ok hc h hl hv htx hone
      simp only [openerEvents]
      rw [csub_ok r3]
      simp only [Bind.bind, Except.bind, Pure.pure, Except.pure]
      rw [csub_ok hempty]
      simp only [Opener.isLinkOrSpan, Bool.not_true, Bool.false_eq_true, and_false, if_false, Opener.bidirectional, Bool.false_and]
      unfold IP.closeOpener
      simp only [DelimEventKind.ofOpener]
      rw [r1]
      simp only [Bind.bind, Except.bind]
      have hstop : r.input.span.stop = p.input.span.stop := by rw [r4]
      rw [← hstop] at r2
      refine (afterClose_ok hc ?_ ?_).mono (fun r hr => hr.mono (fun _ h => h.elim))
      · rw [if_neg (by simp)]; exact r2
      · rw [hstop]; exact h.q
    · have hno : ∀ a b d, o ≠ .link a b d := fun a b d ho => hlk ⟨a, b, d, ho⟩
      have hoe : openerEvents o n = .ok (n, n + 1) := by
        cases o with
        | link a b d => exact absurd rfl (hno a b d)
        | _ => rfl
      rw [hoe]
      simp only [Bind.bind, Except.bind]
      rw [csub_ok hempty]
      simp only
      split
      · exact rfl
      · split
        · exact rfl
        · obtain ⟨es, hes⟩ : ∃ es, p.events = es := ⟨_, rfl⟩
          rw [hes] at hl
          cases hl with
          | link => exact absurd rfl (hno _ _ _)
          | norm q1 q2 q3 q4 q5 q6 q7 qt q8 =>
            subst q2
            exact (closeNormal_ok hc h hes q3 q4 q5 q6 q7 qt q8 hv hno hcb).mono (fun r hr => hr.mono (fun _ h => h.elim))

end Jotdown.Inline
