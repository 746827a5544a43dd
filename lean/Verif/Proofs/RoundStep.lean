import Verif.Proofs.RoundVerb
/-! # Round trip: one step of the parser -/
namespace Jotdown.Round
open Jotdown Jotdown.Notation Jotdown.Lex

theorem Ctx.free_lex {x : Ctx} (h : x.free = true) : (x == .bsl) = false ∧ x.isIn = false := by cases x <;> first | exact ⟨rfl, rfl⟩ | cases h

theorem textAt_at {src z w : Bytes} {a : Nat} (h : src.drop a = z ++ w) : textAt src ⟨a, a + z.length⟩ = z := by
  show (src.drop a).take (a + z.length - a) = z
  rw [h, Nat.add_sub_cancel_left, List.take_left]

theorem byte_at {src z w : Bytes} {a i : Nat} (h : src.drop a = z ++ w) (hi : i < z.length) : src[a + i]? = z[i]? := by
  rw [← List.getElem?_drop, h, List.getElem?_append_left hi]

/-- A step that keeps everything in order. -/
def Step (src : Bytes) (p q : Inline.IP) (f : Inline.Flow) (S : List Op) (T : List F) (Ts : List (List F)) (ls : List Span) : Prop :=
  f = .cont ∧ ∃ x' S' T', Live src q x' S' T' Ts ls ∧ total src q S' T' Ts = total src p S T Ts

theorem Live.adv {src : Bytes} {p q : Inline.IP} {x x' : Ctx} {S S' : List Op} {T T' : List F} {Ts : List (List F)} {ls : List Span} (h : Live src p x S T Ts ls)
    {z : Bytes} (hz : fprint T = z ++ fprint T') (hT : T ≠ [])
    (h1 : q.input.src = p.input.src) (h2 : q.attributes = none) (h3 : q.input.ahead = p.input.ahead) (h4 : q.input.complete = p.input.complete)
    (h5 : q.input.span.stop = p.input.span.stop + z.length) (h6 : q.input.spanLine = p.input.spanLine)
    (lex : Lex.At q.input.lexer (x' == .bsl) x'.isIn (fprint T'))
    (bs : x' = .bsl → ∃ y, z = y ++ [c! '\\'])
    (wsp : x'.tight = true → ∃ y c, z = y ++ [c] ∧ isWs c = false)
    (ops : q.openers.map (·.1) = S'.map Op.opener)
    (opi : ∀ o ∈ q.openers, o.2 + 1 < q.events.length)
    (opx : x'.isOpened = false → ∀ o ∈ q.openers, o.2 + 2 < q.events.length)
    (verb : VerbIs q T' x')
    (hq : QOk q.storeCowstrs.length q.events (p.input.span.stop + z.length))
    (dol : ∀ e, q.events.getLast? = some e → e.kind = .str → x'.free = true → src[e.span.stop - 1]? = some (c! '$') →
      2 ≤ e.span.stop ∧ src[e.span.stop - 2]? = some (c! '\\'))
    (wf : okF x' S' (T' ++ Ts.flatten))
    (br : EndsNl T → (T' = [] ∧ x' = .bol) ∨ EndsNl T')
    (bol : x' = .bol → ∀ e, q.events.getLast? = some e → soft e.kind = false)
    (sp : x' = .space → ∃ y c, z = y ++ [c] ∧ isWs c = true := by intro hh; cases hh)
    (wd : x' = .word → ∃ e, q.events.getLast? = some e ∧ e.kind = .str := by intro hh; cases hh)
    (mth : x' = .dol → ∃ d, MathNext d T' ∧ MathEnd src q.events (p.input.span.stop + z.length) d := by intro hh; cases hh)
    (pw : x' = .word → ∃ y c, z = y ++ [c] ∧ c ≠ c! '\\' := by intro hh; cases hh) : Live src q x' S' T' Ts ls := by
  obtain ⟨w, hw⟩ := h.pos
  rw [hz, List.append_assoc] at hw
  have hlast : ∀ y c, z = y ++ [c] → src[p.input.span.stop + y.length]? = some c := by
    rintro y c rfl
    rw [byte_at hw (by simp)]
    simp
  refine ⟨h1.trans h.hsrc, h2, h3.trans h.ahead, h4.trans h.cpl, lex, ⟨w, ?_⟩, ?_, ?_, ?_, ?_, ops, opi, opx, verb, ?_, dol, wf, h.lines, ?_, h.brs, bol, fun hh _ => wd hh, fun hx => by rw [h5]; exact mth hx, ?_⟩
  · rw [h5, ← List.drop_drop, hw, List.drop_left]
  · intro hx
    obtain ⟨y, rfl⟩ := bs hx
    exact ⟨p.input.span.stop + y.length, by rw [h5]; simp [Nat.add_assoc], hlast y _ rfl⟩
  · intro hx c hc
    obtain ⟨y, d, rfl, hd⟩ := wsp hx
    rw [h5] at hc
    have := hlast y d rfl
    simp only [List.length_append, List.length_singleton] at hc
    rw [show p.input.span.stop + (y.length + 1) - 1 = p.input.span.stop + y.length by omega, this] at hc
    cases hc
    exact hd
  · intro hx
    obtain ⟨y, d, rfl, hd⟩ := sp hx
    exact ⟨p.input.span.stop + y.length, d, by rw [h5]; simp [Nat.add_assoc], hlast y _ rfl, hd⟩
  · rw [h5, h6]; have := h.ln; omega
  · rw [h5]; exact hq
  · intro hTs
    rcases h.br hTs with ⟨rfl, _⟩ | hb
    · exact absurd rfl hT
    · exact br hb
  · intro hx c hc
    obtain ⟨y, d, rfl, hd⟩ := pw hx
    rw [h5] at hc
    have := hlast y d rfl
    simp only [List.length_append, List.length_singleton] at hc
    rw [show p.input.span.stop + (y.length + 1) - 1 = p.input.span.stop + y.length by omega, this] at hc
    cases hc
    exact hd

theorem flat_raws (src : Bytes) (st : List Bytes) (E : List Inline.Event) : (E.map (rawEv src st)).flatten = rawEvs src st E := by
  simp [rawEvs, List.flatMap_def]

/-- Pushing events does not change what is to come. -/
theorem total_view {src : Bytes} {p q : Inline.IP} {S : List Op} {T T' : List F} {Ts : List (List F)} {E : List Inline.Event} (ho : q.openers = p.openers) (hs : q.storeCowstrs = p.storeCowstrs)
    (he : view q T' = view p T ++ E) (hi : ∀ o ∈ p.openers, o.2 + 1 < (view p T).length)
    (hj : joined (rawEvs src p.storeCowstrs E ++ fraw (T' ++ Ts.flatten)) = joined (fraw (T ++ Ts.flatten))) :
    total src q S T' Ts = total src p S T Ts := by
  unfold total
  rw [ho, hs, he, List.map_append, resolve_append (by simpa using hi), List.flatten_append, flat_raws, List.append_assoc]
  exact joined_congr _ hj

theorem total_push {src : Bytes} {p q : Inline.IP} {S : List Op} {T T' : List F} {Ts : List (List F)} {E : List Inline.Event} (hv : p.verbatim = none) (hv' : q.verbatim = none) (hm : NotMath T) (hm' : NotMath T')
    (ho : q.openers = p.openers) (hs : q.storeCowstrs = p.storeCowstrs)
    (he : q.events = p.events ++ E) (hi : ∀ o ∈ p.openers, o.2 + 1 < p.events.length)
    (hj : joined (rawEvs src p.storeCowstrs E ++ fraw (T' ++ Ts.flatten)) = joined (fraw (T ++ Ts.flatten))) :
    total src q S T' Ts = total src p S T Ts :=
  total_view ho hs (by rw [view_none hv hm, view_none hv' hm', he]) (by rw [view_none hv hm]; exact hi) hj

theorem VerbIs.none {p : Inline.IP} {T : List F} {x : Ctx} (h : VerbIs p T x) (hx : x.isIn = false) : p.verbatim = none := by
  cases x <;> first | exact h | cases hx

theorem getLast?_br {A T' : List F} {x' : Ctx} (h : ∀ hard, A.getLast? ≠ some (.nl hard)) (hb : EndsNl (A ++ T')) : (T' = [] ∧ x' = .bol) ∨ EndsNl T' := by
  right
  obtain ⟨hard, hb⟩ := hb
  rw [List.getLast?_append] at hb
  cases hT : T'.getLast? with
  | none => rw [hT] at hb; exact absurd hb (h hard)
  | some y => rw [hT] at hb; exact ⟨hard, by rw [hT]; simpa using hb⟩

theorem chs_last (s : Bytes) (hard : Bool) : (s.map F.ch).getLast? ≠ some (.nl hard) := by
  intro h
  have := List.mem_of_getLast? h
  simp at this

/-- Text. -/
theorem Live.text {src : Bytes} {p : Inline.IP} {x : Ctx} {S : List Op} {A T' : List F} {Ts : List (List F)} {ls : List Span} (h : Live src p x S (A ++ T') Ts ls)
    (hv : p.verbatim = none) (hxd : x ≠ .dol) {z : Bytes} (hz : fprint A = z) (hne : z ≠ []) (hA : ∀ hard, A.getLast? ≠ some (.nl hard)) (hj : ∀ C, joined (Event.str z :: C) = joined (fraw A ++ C))
    (hd : src[p.input.span.stop + z.length - 1]? = some (c! '$') →
      2 ≤ p.input.span.stop + z.length ∧ src[p.input.span.stop + z.length - 2]? = some (c! '\\'))
    {x' : Ctx} (hx' : (x' = .space ∧ ∃ y c, z = y ++ [c] ∧ isWs c = true) ∨ (x' = .other ∨ x' = .word) ∧ ∃ y c, z = y ++ [c] ∧ isWs c = false ∧ (x' = .word → c ≠ c! '\\')) (wf : okF x' S (T' ++ Ts.flatten))
    {l' : Lexer} (hn : p.input.lexer.nextTok = (some ⟨.text, z.length⟩, l')) (hl : Lex.At l' false false (fprint T'))
    {q : Inline.IP} {f : Inline.Flow} (hp : p.parseEvent = .ok (q, f)) : Step src p q f S (A ++ T') Ts ls := by
  rw [parse_some hn, parse_text (p := eaten p _ _) (S := S) h.ops hv h.attr] at hp
  cases hp
  have hpos : 0 < z.length := by cases z with
    | nil => exact absurd rfl hne
    | cons a z => simp
  have hA0 : A ≠ [] := by rintro rfl; exact hne hz.symm
  obtain ⟨w, hw⟩ := h.pos
  rw [fprint_append, hz, List.append_assoc] at hw
  refine ⟨rfl, x', S, T', ?_, ?_⟩
  · refine h.adv (z := z) (by rw [fprint_append, hz]) (by simp [hA0]) rfl h.attr rfl rfl rfl rfl ?_ ?_ ?_ h.ops ?_ ?_ ?_ ?_ ?_ wf (getLast?_br hA) ?_ ?_ ?_ (by rcases hx' with ⟨rfl, _⟩ | ⟨rfl | rfl, _⟩ <;> (intro hh; cases hh)) ?_
    · rcases hx' with ⟨rfl, _⟩ | ⟨rfl | rfl, _⟩ <;> exact hl
    · rintro rfl; simp at hx'
    · intro ht
      rcases hx' with ⟨rfl, _⟩ | ⟨_, y, c, h1, h2, _⟩
      · cases ht
      · exact ⟨y, c, h1, h2⟩
    · intro o ho
      have := h.opi o ho
      simp only [Inline.IP.push, Inline.IP.pushSp, eaten, List.length_append, List.length_singleton]; omega
    · intro _ o ho
      have := h.opi o ho
      simp only [Inline.IP.push, Inline.IP.pushSp, eaten, List.length_append, List.length_singleton]; omega
    · rcases hx' with ⟨rfl, _⟩ | ⟨rfl | rfl, _⟩ <;> exact hv
    · show QOk _ (p.events ++ [⟨.str, ⟨p.input.span.stop, p.input.span.stop + z.length⟩⟩]) _
      exact h.q.push rfl (by simp) (by omega)
    · intro e he _ _ hb
      simp only [Inline.IP.push, Inline.IP.pushSp, eaten, List.getLast?_append, List.getLast?_singleton, Option.some_or, Option.some.injEq] at he
      subst he
      exact hd hb
    · rintro rfl; simp at hx'
    · intro ht
      rcases hx' with ⟨_, h⟩ | ⟨rfl | rfl, _⟩
      · exact h
      · cases ht
      · cases ht
    · intro _
      exact ⟨_, by simp only [Inline.IP.push, Inline.IP.pushSp, eaten, List.getLast?_append, List.getLast?_singleton, Option.some_or]; rfl, rfl⟩
    · intro hw
      rcases hx' with ⟨rfl, _⟩ | ⟨_, y, c, h1, _, h2⟩
      · cases hw
      · exact ⟨y, c, h1, h2 hw⟩
  · have hxd' : x' ≠ .dol := by rcases hx' with ⟨rfl, _⟩ | ⟨rfl | rfl, _⟩ <;> simp
    refine total_push (E := [⟨.str, ⟨p.input.span.stop, p.input.span.stop + z.length⟩⟩]) hv hv (okF_notMath h.wf hxd) (okF_notMath wf hxd') rfl rfl rfl h.opi ?_
    have ht := textAt_at hw
    simp only [rawEvs_cons, rawEvs_nil, rawEv, ht, List.append_nil, List.append_assoc, fraw_append]
    exact hj _

theorem chsCtx_ends {x : Ctx} {s : Bytes} (hs : s ≠ []) (hp : ∀ c ∈ s, isPlain c = true) : (chsCtx x s = .space ∧ ∃ y c, s = y ++ [c] ∧ isWs c = true) ∨ (chsCtx x s = .other ∨ chsCtx x s = .word) ∧ ∃ y c, s = y ++ [c] ∧ isWs c = false ∧ (chsCtx x s = .word → c ≠ c! '\\') := by
  obtain ⟨y, c, rfl⟩ : ∃ y c, s = y ++ [c] := ⟨s.dropLast, s.getLast hs, (List.dropLast_concat_getLast hs).symm⟩
  have hc : c ≠ c! '\\' := by
    rintro rfl
    exact absurd (hp (c! '\\') (by simp)) (by decide)
  unfold chsCtx chCtx
  simp only [List.getLast?_append, List.getLast?_singleton, Option.some_or]
  split
  · rename_i h; exact .inl ⟨rfl, y, c, rfl, h⟩
  · rename_i h; exact .inr ⟨.inr rfl, y, c, rfl, by simpa using h, fun _ => hc⟩

theorem joined_chs' (s : Bytes) (C : List Event) : joined (Event.str s :: C) = joined (fraw (s.map F.ch) ++ C) := by
  induction s with
  | nil => exact joined_empty C
  | cons b s ih =>
    have : b :: s = [b] ++ s := rfl
    rw [this, joined_split]
    exact joined_congr [.str [b]] ih

/-- Text followed by dollar signs. -/
theorem Live.textDol {src : Bytes} {p : Inline.IP} {x : Ctx} {S : List Op} {A T' : List F} {Ts : List (List F)} {ls : List Span} (h : Live src p x S (A ++ T') Ts ls)
    (hv : p.verbatim = none) (hxd : x ≠ .dol) {y : Bytes} {d : Bool} (hz : fprint A = y ++ dollars d) (hA : A.getLast? = some (.dols d)) (hj : ∀ C, joined (Event.str y :: C) = joined (fraw A ++ C))
    (hpv : ∀ c, src[p.input.span.stop + y.length - 1]? = some c → c ≠ c! '\\' ∧ (y ≠ [] → c ≠ c! '$'))
    (hm : MathNext d (T' ++ Ts.flatten)) (wf : okF .dol S (T' ++ Ts.flatten))
    {l' : Lexer} (hn : p.input.lexer.nextTok = (some ⟨.text, (y ++ dollars d).length⟩, l')) (hl : Lex.At l' false false (fprint T'))
    {q : Inline.IP} {f : Inline.Flow} (hp : p.parseEvent = .ok (q, f)) : Step src p q f S (A ++ T') Ts ls := by
  rw [parse_some hn, parse_text (p := eaten p _ _) (S := S) h.ops hv h.attr] at hp
  cases hp
  have hdl : (dollars d).length = if d then 2 else 1 := by cases d <;> rfl
  have hd0 : 0 < (dollars d).length := by cases d <;> simp [dollars]
  have hA0 : A ≠ [] := by rintro rfl; cases hA
  have hAn : ∀ hard, A.getLast? ≠ some (.nl hard) := by intro hard hh; rw [hA] at hh; cases hh
  obtain ⟨w, hw⟩ := h.pos
  rw [fprint_append, hz, List.append_assoc] at hw
  have hT' : MathNext d T' := by
    obtain ⟨n, s, T'', e⟩ := hm
    cases T' with
    | nil =>
      exfalso
      by_cases hTs : Ts = []
      · subst hTs; cases e
      · rcases h.br hTs with ⟨e1, _⟩ | ⟨hard, hb⟩
        · exact hA0 (List.append_eq_nil_iff.mp e1).1
        · rw [List.append_nil] at hb; exact hAn hard hb
    | cons g T' =>
      simp only [List.cons_append, List.cons.injEq] at e
      exact ⟨n, s, T', by rw [e.1]⟩
  have hat : ∀ i, i < (dollars d).length → src[p.input.span.stop + y.length + i]? = some (c! '$') := by
    intro i hi
    rw [Nat.add_assoc, byte_at hw (by simp; omega)]
    rw [List.getElem?_append_right (by omega), Nat.add_sub_cancel_left]
    cases d with
    | false => simp only [dollars] at hi ⊢; cases i with
      | zero => rfl
      | succ i => simp at hi
    | true => simp only [dollars] at hi ⊢; cases i with
      | zero => rfl
      | succ i => cases i with
        | zero => rfl
        | succ i => simp at hi; omega
  have hlen : (y ++ dollars d).length = y.length + (dollars d).length := List.length_append
  refine ⟨rfl, .dol, S, T', ?_, ?_⟩
  · refine h.adv (z := y ++ dollars d) (by rw [fprint_append, hz]) (by simp [hA0]) rfl h.attr rfl rfl rfl rfl hl (by simp) (by intro hh; cases hh) h.ops ?_ ?_ hv ?_ ?_ wf (getLast?_br hAn) (by simp) (mth := ?_)
    · intro o ho
      have := h.opi o ho
      simp only [Inline.IP.push, Inline.IP.pushSp, eaten, List.length_append, List.length_singleton]; omega
    · intro _ o ho
      have := h.opi o ho
      simp only [Inline.IP.push, Inline.IP.pushSp, eaten, List.length_append, List.length_singleton]; omega
    · show QOk _ (p.events ++ [⟨.str, ⟨p.input.span.stop, p.input.span.stop + (y ++ dollars d).length⟩⟩]) _
      exact h.q.push rfl (by simp) (by omega)
    · intro e he _ hf; cases hf
    · intro _
      refine ⟨d, hT', ⟨⟨p.events, p.input.span.stop, rfl, by omega, ?_⟩, ?_, ?_, ?_⟩⟩
      · rintro rfl hab
        have hy : y ≠ [] := by rintro rfl; simp [dollars] at hab
        rw [hlen, show p.input.span.stop + (y.length + (dollars false).length) - 2 = p.input.span.stop + y.length - 1 by simp [dollars]; omega]
        intro hh
        exact (hpv _ hh).2 hy rfl
      · rw [hlen, show p.input.span.stop + (y.length + (dollars d).length) - 1 = p.input.span.stop + y.length + ((dollars d).length - 1) by omega]
        exact hat _ (by omega)
      · rintro rfl
        rw [hlen, show p.input.span.stop + (y.length + (dollars true).length) - 2 = p.input.span.stop + y.length + 0 by simp [dollars]; omega]
        exact hat 0 (by simp [dollars])
      · intro c hc
        rw [hlen, show p.input.span.stop + (y.length + (dollars d).length) - ((dollars d).length + 1) = p.input.span.stop + y.length - 1 by omega] at hc
        exact (hpv c hc).1
  · have hvp : view p (A ++ T') = p.events := view_none hv (okF_notMath h.wf hxd)
    refine total_view (E := [⟨.str, ⟨p.input.span.stop, p.input.span.stop + y.length⟩⟩]) rfl rfl ?_ (by rw [hvp]; exact h.opi) ?_
    · obtain ⟨n, s, T'', rfl⟩ := hT'
      rw [hvp]
      unfold view
      rw [show ((eaten p ⟨.text, (y ++ dollars d).length⟩ l').push .str).verbatim = none from hv]
      simp only [trimDol, Inline.IP.push, Inline.IP.pushSp, eaten, List.getLast?_append, List.getLast?_singleton, Option.some_or, List.dropLast_concat]
      rw [show p.input.span.stop + (y ++ dollars d).length - (dollars d).length = p.input.span.stop + y.length by rw [hlen]; omega]
    · have ht : textAt src ⟨p.input.span.stop, p.input.span.stop + y.length⟩ = y := textAt_at (w := dollars d ++ (fprint T' ++ w)) (by rw [hw, List.append_assoc])
      simp only [rawEvs_cons, rawEvs_nil, rawEv, ht, List.append_nil, List.append_assoc, fraw_append]
      exact hj _

theorem chsCtx_plain {x : Ctx} {s : Bytes} (hs : s ≠ []) : chsCtx x s = .space ∨ chsCtx x s = .word := by
  unfold chsCtx chCtx
  cases h : s.getLast? with
  | none => exact absurd (List.getLast?_eq_none_iff.mp h) hs
  | some b => simp only; split <;> simp

theorem Live.step_text {src : Bytes} {p : Inline.IP} {x : Ctx} {S : List Op} {T : List F} {Ts : List (List F)} {ls : List Span} (h : Live src p x S T Ts ls) (hx : x.free = true)
    {k : Nat} {e : Bool} (ht : tokenAt false false (fprint T) = (some ⟨.text, k⟩, e)) (hk : 0 < k)
    {q : Inline.IP} {f : Inline.Flow} (hp : p.parseEvent = .ok (q, f)) : Step src p q f S T Ts ls := by
  have hlex := h.lex
  rw [(Ctx.free_lex hx).1, (Ctx.free_lex hx).2] at hlex
  have hv : p.verbatim = none := by
    have := h.verb
    cases x <;> first | exact this | cases hx
  obtain ⟨m, l', n1, n2, n3⟩ := hlex.next_text ht
  obtain ⟨s, D, T2, rfl, g2, g3, g4, g5⟩ := texts_ch (Texts.cons ht n2) rfl hx h.wf h.nobsl
  obtain ⟨w, hw⟩ := h.pos
  rw [← g3] at n1 n3
  rw [dol_length] at n3
  have hbyte : s ≠ [] → ∀ c, src[p.input.span.stop + s.length - 1]? = some c → isPlain c = true := by
    intro hs c hc
    rw [fprint_append, fprint_chs, List.append_assoc] at hw
    have hl : 0 < s.length := List.length_pos_iff.mpr hs
    have := byte_at hw (i := s.length - 1) (by omega)
    rw [Nat.add_sub_assoc (by omega), this] at hc
    exact g2 _ (List.mem_of_getElem? hc)
  cases D with
  | none =>
    simp only [dolF, dolB, dolCtx, List.nil_append, List.append_nil] at h g3 g4 n1 n3 ⊢
    have hs : s ≠ [] := by rintro rfl; simp at g3; omega
    refine h.text hv (free_notDol hx) (fprint_chs _) hs (chs_last _) (joined_chs' _) ?_ (chsCtx_ends (x := x) hs g2) g4 n1 n3 hp
    intro hd
    exact absurd rfl (plain_special (hbyte hs _ hd)).2
  | some d =>
    simp only [dolF, dolB, dolCtx, DolAt, ← List.append_assoc] at h g3 g4 g5 n1 n3 ⊢
    refine h.textDol hv (free_notDol hx) (y := s) (d := d) ?_ (by simp) ?_ ?_ g5.2 g4 n1 n3 hp
    · rw [fprint_append, fprint_chs]; simp [F.print]
    · intro C; rw [fraw_append, List.append_assoc]; exact joined_chs' s C
    · intro c hc
      by_cases hs : s = []
      · subst hs
        refine ⟨?_, fun hh => absurd rfl hh⟩
        rcases g5.1 with hx' | hx'
        · obtain ⟨i, b, h1, h2, h3⟩ := h.sp hx'
          rw [h1] at hc
          rw [show i + 1 + ([] : Bytes).length - 1 = i by simp, h2] at hc
          cases hc
          rintro rfl
          revert h3; decide
        · exact h.pw hx' c hc
      · have := hbyte hs c hc
        refine ⟨?_, fun _ => (plain_special this).2⟩
        rintro rfl
        exact absurd (plain_special this).1 (by decide)

theorem step_ch {src : Bytes} {p : Inline.IP} {x : Ctx} {S : List Op} {b : UInt8} {T : List F} {Ts : List (List F)} {ls : List Span} (h : Live src p x S (.ch b :: T) Ts ls)
    {q : Inline.IP} {f : Inline.Flow} (hp : p.parseEvent = .ok (q, f)) : Step src p q f S (.ch b :: T) Ts ls := by
  have hwf := h.wf
  obtain ⟨hx, hb, _⟩ := hwf
  have h1 : 0 < countWhile (fun c => !isSpecial c) (fprint (.ch b :: T)) := by
    show 0 < countWhile (fun c => !isSpecial c) (b :: fprint T)
    simp [countWhile, (plain_special hb).1]
  refine h.step_text hx (k := countWhile (fun c => !isSpecial c) (fprint (.ch b :: T))) (e := false) ?_ h1 hp
  unfold tokenAt
  simp only [Bool.false_eq_true, if_false, h1, if_true]

theorem step_dols {src : Bytes} {p : Inline.IP} {x : Ctx} {S : List Op} {d : Bool} {T : List F} {Ts : List (List F)} {ls : List Span} (h : Live src p x S (.dols d :: T) Ts ls)
    {q : Inline.IP} {f : Inline.Flow} (hp : p.parseEvent = .ok (q, f)) : Step src p q f S (.dols d :: T) Ts ls := by
  have hwf := h.wf
  obtain ⟨hx, _⟩ := hwf
  have h1 : 0 < countWhile (fun c => !isSpecial c) (fprint (.dols d :: T)) := by
    obtain ⟨r, hr⟩ : ∃ r, fprint (.dols d :: T) = c! '$' :: r := by cases d <;> exact ⟨_, rfl⟩
    rw [hr]
    simp [countWhile, show isSpecial (c! '$') = false by decide]
  refine h.step_text hx (k := countWhile (fun c => !isSpecial c) (fprint (.dols d :: T))) (e := false) ?_ h1 hp
  unfold tokenAt
  simp only [Bool.false_eq_true, if_false, h1, if_true]

theorem step_lit {src : Bytes} {p : Inline.IP} {x : Ctx} {S : List Op} {c : UInt8} {T : List F} {Ts : List (List F)} {ls : List Span} (h : Live src p x S (.lit c :: T) Ts ls)
    {q : Inline.IP} {f : Inline.Flow} (hp : p.parseEvent = .ok (q, f)) : Step src p q f S (.lit c :: T) Ts ls := by
  have hwf := h.wf
  obtain ⟨rfl, hc, hw⟩ : x = .bsl ∧ isPunct c = true ∧ okF .other S (T ++ Ts.flatten) := hwf
  have hlex := h.lex
  have hv : p.verbatim = none := h.verb
  have ht : tokenAt true false (fprint (.lit c :: T)) = (some ⟨.text, 1⟩, false) := tok_lit hc false _
  obtain ⟨m, l', n1, n2, n3⟩ := hlex.next_text ht
  have hd1 : (fprint (.lit c :: T)).drop 1 = fprint T := rfl
  have hnb : T.getLast? ≠ some .bsl := by
    have := h.nobsl
    intro hh
    apply this
    cases T with
    | nil => simp at hh
    | cons a T => rw [List.getLast?_cons_cons]; exact hh
  obtain ⟨s, D, T2, g1, g2, g3, g4, g5⟩ := texts_ch n2 hd1 rfl hw hnb
  obtain ⟨i, hi1, hi2⟩ := h.bs rfl
  subst g1
  have hz : fprint (F.lit c :: s.map F.ch) = c :: s := by
    rw [fprint_cons, fprint_chs]; rfl
  have hbyte : s ≠ [] → ∀ b, src[p.input.span.stop + (c :: s).length - 1]? = some b → isPlain b = true := by
    intro hs b hb
    obtain ⟨w, hw⟩ := h.pos
    rw [show F.lit c :: (s.map F.ch ++ (dolF D ++ T2)) = (F.lit c :: s.map F.ch) ++ (dolF D ++ T2) from rfl, fprint_append, hz, List.append_assoc] at hw
    have hl : 0 < s.length := List.length_pos_iff.mpr hs
    have := byte_at hw (i := (c :: s).length - 1) (by simp)
    rw [Nat.add_sub_assoc (by simp), this] at hb
    have h2 : (c :: s)[(c :: s).length - 1]? = s[s.length - 1]? := by
      simp only [List.length_cons, Nat.add_sub_cancel]
      rw [List.getElem?_cons]
      simp [hs]
    rw [h2] at hb
    exact g2 _ (List.mem_of_getElem? hb)
  have hjs : ∀ C, joined (Event.str (c :: s) :: C) = joined (fraw (F.lit c :: s.map F.ch) ++ C) := by
    intro C
    have : c :: s = [c] ++ s := rfl
    rw [this, joined_split]
    exact joined_congr [.str [c]] (joined_chs' s C)
  have hlen : (c :: (s ++ dolB D)).length = 1 + m := by simp [g3] at *; omega
  rw [← hlen] at n1 n3
  have hn3 : (fprint (F.lit c :: (s.map F.ch ++ (dolF D ++ T2)))).drop (c :: (s ++ dolB D)).length = fprint T2 := dol_length s D T2
  rw [hn3] at n3
  cases D with
  | none =>
    simp only [dolF, dolB, dolCtx, List.nil_append, List.append_nil] at h g3 g4 n1 n3 ⊢
    have hT : F.lit c :: (s.map F.ch ++ T2) = (F.lit c :: s.map F.ch) ++ T2 := rfl
    rw [hT] at h ⊢
    refine h.text hv (by simp) hz (by simp) ?_ hjs ?_ (x' := chsCtx .other s) ?_ g4 n1 n3 hp
    · intro hard
      cases s with
      | nil => simp
      | cons a s => rw [List.map_cons, List.getLast?_cons_cons, ← List.map_cons]; exact chs_last _ hard
    · intro hd
      by_cases hs : s = []
      · subst hs
        refine ⟨by rw [hi1]; simp, ?_⟩
        rw [hi1]
        show src[i + 1 + 1 - 2]? = _
        exact hi2
      · exact absurd rfl (plain_special (hbyte hs _ hd)).2
    · by_cases hs : s = []
      · subst hs
        exact .inr ⟨.inl rfl, [], c, rfl, punct_ws hc, by intro hh; cases hh⟩
      · rcases chsCtx_ends (x := .other) hs g2 with ⟨h1, y, d, rfl, h3⟩ | ⟨h1, y, d, rfl, h3⟩
        · exact .inl ⟨h1, c :: y, d, rfl, h3⟩
        · exact .inr ⟨h1, c :: y, d, rfl, h3⟩
  | some d =>
    simp only [dolF, dolB, dolCtx, DolAt] at h g3 g4 g5 n1 n3 ⊢
    have hs : s ≠ [] := by
      rintro rfl
      rcases g5.1 with hh | hh <;> cases hh
    have hT : F.lit c :: (s.map F.ch ++ ([F.dols d] ++ T2)) = (F.lit c :: (s.map F.ch ++ [F.dols d])) ++ T2 := by simp
    rw [hT] at h ⊢
    refine h.textDol hv (by simp) (y := c :: s) (d := d) ?_ ?_ ?_ ?_ g5.2 g4 n1 n3 hp
    · rw [fprint_cons, fprint_append, fprint_chs]; simp [F.print]
    · rw [← List.cons_append, List.getLast?_append]; rfl
    · intro C
      rw [hjs C, ← List.cons_append, fraw_append, List.append_assoc]; rfl
    · intro b hb
      have := hbyte hs b hb
      refine ⟨?_, fun _ => (plain_special this).2⟩
      rintro rfl
      exact absurd (plain_special this).1 (by decide)

theorem notNl_br {g : F} {T : List F} {x' : Ctx} (h : ∀ hard, g ≠ .nl hard) (hb : EndsNl (g :: T)) : (T = [] ∧ x' = .bol) ∨ EndsNl T :=
  getLast?_br (A := [g]) (by simpa using h) hb

theorem getLast?_push (Q : List Inline.Event) (e : Inline.Event) : (Q ++ [e]).getLast? = some e := by simp

/-- Events pushed at the end of a piece: the last is no text. -/
theorem Live.pushes {src : Bytes} {p q : Inline.IP} {x x' : Ctx} {S : List Op} {g : F} {T : List F} {Ts : List (List F)} {ls : List Span} (h : Live src p x S (g :: T) Ts ls)
    {E : List Inline.Event} {e : Inline.Event}
    (h1 : q.input.src = p.input.src) (h2 : q.attributes = p.attributes) (h3 : q.input.ahead = p.input.ahead) (h4 : q.input.complete = p.input.complete)
    (h5 : q.input.span.stop = p.input.span.stop + g.print.length) (h6 : q.input.spanLine = p.input.spanLine)
    (lex : Lex.At q.input.lexer (x' == .bsl) x'.isIn (fprint T)) (bs : x' = .bsl → g = .bsl)
    (wsp : x'.tight = true → ∃ y c, g.print = y ++ [c] ∧ isWs c = false)
    (ho : q.openers = p.openers) (hs : q.storeCowstrs = p.storeCowstrs) (he : q.events = p.events ++ (E ++ [e]))
    (verb : VerbIs q T x') (hvp : p.verbatim = none) (hin' : x'.isIn = false) (hq : QOk p.storeCowstrs.length (p.events ++ (E ++ [e])) (p.input.span.stop + g.print.length))
    (dol : e.kind = .str → x'.free = true → src[e.span.stop - 1]? = some (c! '$') → False)
    (wf : okF x' S (T ++ Ts.flatten)) (bol : (∃ hard, g = .nl hard) → x' = .bol) (bol' : x' = .bol → soft e.kind = false)
    (hr : ∀ C, joined (rawEvs src p.storeCowstrs (E ++ [e]) ++ C) = joined (g.raw ++ C)) (hsp : x' ≠ .space := by first | simp | assumption)
    (hwd : x' ≠ .word := by first | simp | assumption) (hdl : x' ≠ .dol := by first | simp | assumption) (hxd : x ≠ .dol := by first | simp | assumption | exact free_notDol (by assumption)) :
    Live src q x' S T Ts ls ∧ total src q S T Ts = total src p S (g :: T) Ts := by
  have hlast : ∀ e', q.events.getLast? = some e' → e' = e := by
    intro e' he'
    rw [he, ← List.append_assoc, getLast?_push] at he'
    exact (Option.some.inj he').symm
  constructor
  · refine h.adv (z := g.print) rfl (by simp) h1 (h2.trans h.attr) h3 h4 h5 h6 lex ?_ wsp (by rw [ho]; exact h.ops) ?_ ?_ verb (by rw [hs, he]; exact hq) ?_ wf ?_ ?_ (fun hh => absurd hh hsp) (fun hh => absurd hh hwd) (fun hh => absurd hh hdl) (fun hh => absurd hh hwd)
    · intro hx; rw [bs hx]; exact ⟨[], rfl⟩
    · intro o ho'
      have := h.opi o (ho ▸ ho')
      rw [he]
      simp only [List.length_append, List.length_singleton]; omega
    · intro _ o ho'
      have := h.opi o (ho ▸ ho')
      rw [he]
      simp only [List.length_append, List.length_singleton]; omega
    · intro e' he' hk hf hd
      rw [hlast e' he'] at hk hd
      exact (dol hk hf hd).elim
    · intro hb
      by_cases hg : ∃ hard, g = .nl hard
      · cases T with
        | nil => exact .inl ⟨rfl, bol hg⟩
        | cons y T => right; obtain ⟨hard, hb⟩ := hb; rw [List.getLast?_cons_cons] at hb; exact ⟨hard, hb⟩
      · exact notNl_br (fun hard hh => hg ⟨hard, hh⟩) hb
    · intro hx e' he'
      rw [hlast e' he']; exact bol' hx
  · refine total_push hvp (verb.none hin') (okF_notMath h.wf hxd) (okF_notMath wf hdl) ho hs he h.opi ?_
    rw [hr]
    simp

theorem Live.noVerb {src : Bytes} {p : Inline.IP} {x : Ctx} {S : List Op} {T : List F} {Ts : List (List F)} {ls : List Span} (h : Live src p x S T Ts ls) (hx : x.free = true) :
    p.verbatim = none ∧ Lex.At p.input.lexer false false (fprint T) := by
  have hlex := h.lex
  rw [(Ctx.free_lex hx).1, (Ctx.free_lex hx).2] at hlex
  refine ⟨?_, hlex⟩
  have := h.verb
  cases x <;> first | exact this | cases hx

/-- A single atom. -/
theorem Live.atom {src : Bytes} {p : Inline.IP} {x x' : Ctx} {S : List Op} {g : F} {T : List F} {Ts : List (List F)} {ls : List Span} (h : Live src p x S (g :: T) Ts ls)
    (hv : p.verbatim = none) (hxd : x ≠ .dol) {a : Inline.Atom} {k : Kind} (hk : atomTok k = some a) {n : Nat} (hlen : n = g.print.length) (hr : [atomEvent a] = g.raw)
    (hx : x' = .bsl ∧ g = .bsl ∨ x' = .bol ∧ (∃ hard, g = .nl hard) ∨ x' = .nb ∧ g = .nbsp)
    (wf : okF x' S (T ++ Ts.flatten))
    {l' : Lexer} (hn : p.input.lexer.nextTok = (some ⟨k, n⟩, l')) (hl : Lex.At l' (x' == .bsl) false (fprint T))
    {q : Inline.IP} {f : Inline.Flow} (hp : p.parseEvent = .ok (q, f)) : Step src p q f S (g :: T) Ts ls := by
  rw [parse_some hn, parse_atom (p := eaten p _ _) (S := S) h.ops hv h.attr n hk] at hp
  cases hp
  have hin : x'.isIn = false := by rcases hx with ⟨rfl, _⟩ | ⟨rfl, _⟩ | ⟨rfl, _⟩ <;> rfl
  have hnt : x'.tight = false := by rcases hx with ⟨rfl, _⟩ | ⟨rfl, _⟩ | ⟨rfl, _⟩ <;> rfl
  have hsp : x' ≠ .space := by rcases hx with ⟨rfl, _⟩ | ⟨rfl, _⟩ | ⟨rfl, _⟩ <;> simp
  have hdl : x' ≠ .dol := by rcases hx with ⟨rfl, _⟩ | ⟨rfl, _⟩ | ⟨rfl, _⟩ <;> simp
  have hwd : x' ≠ .word := by rcases hx with ⟨rfl, _⟩ | ⟨rfl, _⟩ | ⟨rfl, _⟩ <;> simp
  refine ⟨rfl, x', S, T, h.pushes (E := []) (e := ⟨.atom a, ⟨p.input.span.stop, p.input.span.stop + n⟩⟩) rfl rfl rfl rfl ?_ rfl ?_ ?_ ?_ rfl rfl rfl ?_ hv hin ?_ ?_ wf ?_ (fun _ => rfl) ?_ hsp hwd hdl hxd⟩
  · rw [← hlen]; rfl
  · rw [hin]; exact hl
  · rintro rfl
    rcases hx with ⟨_, h⟩ | ⟨h, _⟩ | ⟨h, _⟩
    · exact h
    · cases h
    · cases h
  · rw [hnt]; intro h; cases h
  · rcases hx with ⟨rfl, _⟩ | ⟨rfl, _⟩ | ⟨rfl, _⟩ <;> exact hv
  · rw [← hlen]
    exact h.q.push rfl (by simp) (by omega)
  · intro hk; cases hk
  · rintro ⟨hard, rfl⟩
    rcases hx with ⟨_, h⟩ | ⟨h, _⟩ | ⟨_, h⟩
    · cases h
    · exact h
    · cases h
  · intro C
    simp only [List.nil_append, rawEvs_cons, rawEvs_nil, rawEv, List.append_nil, hr]

theorem tok_hard (v : Bool) (r : Bytes) : tokenAt true v (c! '\n' :: r) = (some ⟨.hardbreak, 1⟩, false) := rfl

theorem step_nl {src : Bytes} {p : Inline.IP} {x : Ctx} {S : List Op} {hard : Bool} {T : List F} {Ts : List (List F)} {ls : List Span} (h : Live src p x S (.nl hard :: T) Ts ls)
    {q : Inline.IP} {f : Inline.Flow} (hp : p.parseEvent = .ok (q, f)) : Step src p q f S (.nl hard :: T) Ts ls := by
  cases hard with
  | false =>
    obtain ⟨hx, _, hw⟩ : x.free = true ∧ x ≠ .nb ∧ okF .bol S (T ++ Ts.flatten) := h.wf
    obtain ⟨hv, hlex⟩ := h.noVerb hx
    obtain ⟨l', n1, n2, _⟩ := hlex.next_tok (tok_nl (fprint T)) (by simp)
    exact h.atom (a := .softbreak) hv (free_notDol hx) rfl rfl rfl (.inr (.inl ⟨rfl, _, rfl⟩)) hw n1 n2 hp
  | true =>
    obtain ⟨rfl, hw⟩ : x = .bsl ∧ okF .bol S (T ++ Ts.flatten) := h.wf
    obtain ⟨l', n1, n2, _⟩ := h.lex.next_tok (tok_hard false (fprint T)) (by simp)
    exact h.atom (a := .hardbreak) h.verb (by simp) rfl rfl rfl (.inr (.inl ⟨rfl, _, rfl⟩)) hw n1 n2 hp

theorem step_nbsp {src : Bytes} {p : Inline.IP} {x : Ctx} {S : List Op} {T : List F} {Ts : List (List F)} {ls : List Span} (h : Live src p x S (.nbsp :: T) Ts ls)
    {q : Inline.IP} {f : Inline.Flow} (hp : p.parseEvent = .ok (q, f)) : Step src p q f S (.nbsp :: T) Ts ls := by
  obtain ⟨rfl, hw⟩ : x = .bsl ∧ okF .nb S (T ++ Ts.flatten) := h.wf
  obtain ⟨l', n1, n2, _⟩ := h.lex.next_tok (tok_nbsp false (r := fprint T) (fun c hc => (next_byte rfl hw hc).2.2.2 rfl)) (by simp)
  exact h.atom (a := .nbsp) h.verb (by simp) rfl rfl rfl (.inr (.inr ⟨rfl, rfl⟩)) hw n1 n2 hp

theorem step_bsl {src : Bytes} {p : Inline.IP} {x : Ctx} {S : List Op} {T : List F} {Ts : List (List F)} {ls : List Span} (h : Live src p x S (.bsl :: T) Ts ls)
    {q : Inline.IP} {f : Inline.Flow} (hp : p.parseEvent = .ok (q, f)) : Step src p q f S (.bsl :: T) Ts ls := by
  obtain ⟨hx, _, hw⟩ : x.free = true ∧ x ≠ .code ∧ okF .bsl S (T ++ Ts.flatten) := h.wf
  obtain ⟨hv, hlex⟩ := h.noVerb hx
  obtain ⟨l', n1, n2, _⟩ := hlex.next_tok (tok_of hx h.wf (by simp) (by simp) h.nobsl) (by simp [F.kind])
  exact h.atom (a := .escape) hv (free_notDol hx) rfl rfl rfl (.inl ⟨rfl, rfl⟩) hw n1 n2 hp

theorem step_dots {src : Bytes} {p : Inline.IP} {x : Ctx} {S : List Op} {T : List F} {Ts : List (List F)} {ls : List Span} (h : Live src p x S (.dots :: T) Ts ls)
    {q : Inline.IP} {f : Inline.Flow} (hp : p.parseEvent = .ok (q, f)) : Step src p q f S (.dots :: T) Ts ls := by
  obtain ⟨hx, _, hw⟩ : x.free = true ∧ x ≠ .dots ∧ okF .dots S (T ++ Ts.flatten) := h.wf
  obtain ⟨hv, hlex⟩ := h.noVerb hx
  obtain ⟨l', n1, n2, _⟩ := hlex.next_tok (tok_of hx h.wf (by simp) (by simp) h.nobsl) (by simp [F.kind])
  rw [parse_some n1] at hp
  simp only [F.kind, F.tok] at hp
  rw [parse_dots (p := eaten p _ _) (S := S) h.ops hv h.attr (i := p.input.span.stop) rfl] at hp
  cases hp
  obtain ⟨w, hpw⟩ := h.pos
  have hq1 : QOk p.storeCowstrs.length (p.events ++ [⟨.atom .ellipsis, ⟨p.input.span.stop, p.input.span.stop + 3⟩⟩]) (p.input.span.stop + 3) := h.q.push rfl (by simp) (by omega)
  have hq2 := hq1.push (k := .str) (c := p.input.span.stop + 3) rfl (by simp) (Nat.le_refl _)
  rw [List.append_assoc] at hq2
  refine ⟨rfl, .dots, S, T, h.pushes (x' := .dots) (E := [⟨.atom .ellipsis, ⟨p.input.span.stop, p.input.span.stop + 3⟩⟩]) (e := ⟨.str, ⟨p.input.span.stop + 3, p.input.span.stop + 3⟩⟩)
    rfl rfl rfl rfl rfl rfl n2 (by simp) (fun _ => ⟨[c! '.', c! '.'], c! '.', rfl, rfl⟩) rfl rfl rfl hv hv rfl hq2 ?_ hw (by simp) (by simp) ?_ (hxd := free_notDol hx)⟩
  · intro _ _ hb
    have hpw' : src.drop p.input.span.stop = [c! '.', c! '.', c! '.'] ++ (fprint T ++ w) := hpw
    have := byte_at hpw' (i := 2) (by simp)
    have hb' : src[p.input.span.stop + 2]? = some (c! '$') := hb
    rw [hb'] at this
    exact absurd this (by decide)
  · intro C
    have ht : textAt src ⟨p.input.span.stop + 3, p.input.span.stop + 3⟩ = [] := by unfold textAt; simp
    simp only [List.cons_append, List.nil_append, rawEvs_cons, rawEvs_nil, rawEv, List.append_nil, F.raw, ht]
    exact joined_congr [.ellipsis] (joined_empty C)

theorem step_dash {src : Bytes} {p : Inline.IP} {x : Ctx} {S : List Op} {em : Bool} {T : List F} {Ts : List (List F)} {ls : List Span} (h : Live src p x S (.dash em :: T) Ts ls)
    {q : Inline.IP} {f : Inline.Flow} (hp : p.parseEvent = .ok (q, f)) : Step src p q f S (.dash em :: T) Ts ls := by
  obtain ⟨hx, _, hw⟩ : x.free = true ∧ x ≠ .dash ∧ okF .dash S (T ++ Ts.flatten) := h.wf
  obtain ⟨hv, hlex⟩ := h.noVerb hx
  obtain ⟨l', n1, n2, _⟩ := hlex.next_tok (tok_of hx h.wf (by simp) (by simp) h.nobsl) (by simp [F.kind])
  rw [parse_some n1] at hp
  simp only [F.kind, F.tok] at hp
  rw [parse_dash (p := eaten p _ _) (S := S) h.ops hv h.attr (i := p.input.span.stop) em rfl] at hp
  cases hp
  have hlen : (F.dash em).print.length = if em then 3 else 2 := by cases em <;> rfl
  refine ⟨rfl, .dash, S, T, h.pushes (x' := .dash) (E := []) (e := ⟨.atom (if em then .emDash else .enDash), ⟨p.input.span.stop, p.input.span.stop + if em then 3 else 2⟩⟩)
    rfl rfl rfl rfl (by rw [hlen]; rfl) rfl ?_ (by simp) ?_ rfl rfl rfl hv hv rfl ?_ (by intro h; cases h) hw (by simp) (by simp) ?_ (hxd := free_notDol hx)⟩
  · have : (fprint (F.dash em :: T)).drop (F.dash em).tok = fprint T := by cases em <;> rfl
    rw [this] at n2
    exact n2
  · intro _; cases em
    · exact ⟨[c! '-'], c! '-', rfl, rfl⟩
    · exact ⟨[c! '-', c! '-'], c! '-', rfl, rfl⟩
  · rw [hlen]
    exact h.q.push rfl (by simp) (by omega)
  · intro C
    cases em <;> rfl

end Jotdown.Round
