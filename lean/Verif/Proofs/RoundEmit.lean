import Verif.Proofs.RoundLink
/-! # Round trip: reading the lines and emitting events -/
namespace Jotdown.Round
open Jotdown Jotdown.Notation Jotdown.Lex

/-! ## Filling the queue -/

theorem Live.done {src : Bytes} {p : Inline.IP} {x : Ctx} {S : List Op} {Ts : List (List F)} {ls : List Span} (h : Live src p x S [] Ts ls)
    {l' : Lexer} (hl : At l' false x.isIn []) (hx : x ≠ .bsl) :
    Live src { p with input := { p.input with lexer := l', span := ⟨p.input.span.stop, p.input.span.stop⟩ } } x S [] Ts ls := by
  refine ⟨h.hsrc, h.attr, h.ahead, h.cpl, ?_, h.pos, fun hb => absurd hb hx, h.wsp, h.sp, h.ln, h.ops, h.opi, h.opx, ?_, h.q, h.dol, h.wf, h.lines, h.br, h.brs, h.bol, h.wd, h.mth, h.pw⟩
  · have : (x == .bsl) = false := by cases x <;> first | rfl | exact absurd rfl hx
    rw [this]; exact hl
  · have := h.verb
    cases x <;> exact this

theorem Live.end_ctx {src : Bytes} {p : Inline.IP} {x : Ctx} {S : List Op} {Ts : List (List F)} {ls : List Span} (h : Live src p x S [] Ts ls) : x.free = true := by
  by_cases hT : Ts = []
  · subst hT; exact h.wf.1
  · rcases h.br hT with ⟨_, rfl⟩ | hb
    · rfl
    · obtain ⟨_, hb⟩ := hb; simp at hb

theorem Live.end_lines {src : Bytes} {p : Inline.IP} {x : Ctx} {S : List Op} {T : List F} {Ts : List (List F)} {ls : List Span} (h : Live src p x S T Ts ls) : ls = [] ↔ Ts = [] := by
  have := congrArg List.length h.lines
  simp only [List.length_map] at this
  constructor
  · rintro rfl; exact List.length_eq_zero_iff.mp this.symm
  · rintro rfl; exact List.length_eq_zero_iff.mp this

/-- Nothing is open: events can be emitted. -/
structure Ready (p : Inline.IP) (T : List F) (Ts : List (List F)) : Prop where
  ops : p.openers = []
  verb : p.verbatim = none
  last : (∃ e, p.events.getLast? = some e ∧ e.kind ≠ .str) ∨ (T = [] ∧ Ts = [])

/-- One step inside a line, other than the end of a link. -/
theorem step {src : Bytes} {p : Inline.IP} {x : Ctx} {S : List Op} {T : List F} {Ts : List (List F)} {ls : List Span} (h : Live src p x S T Ts ls) (hT : T ≠ [])
    (hl : ∀ image url T', T ≠ .cls (.link image url) :: T') {q : Inline.IP} {f : Inline.Flow} (hp : p.parseEvent = .ok (q, f)) : Step src p q f S T Ts ls := by
  cases T with
  | nil => exact absurd rfl hT
  | cons g T =>
    cases g with
    | ch b => exact step_ch h hp
    | bsl => exact step_bsl h hp
    | lit c => exact step_lit h hp
    | nbsp => exact step_nbsp h hp
    | opn o => exact step_opn h hp
    | cls o =>
      cases o with
      | mark m b => exact step_cls h hp
      | link image url => exact absurd rfl (hl image url T)
    | code n s => exact step_code h hp
    | rest n u => exact step_rest h hp
    | nl hard => exact step_nl h hp
    | dols d => exact step_dols h hp
    | dots => exact step_dots h hp
    | dash em => exact step_dash h hp
    | sym s => exact step_sym h hp
    | right d => exact step_right h hp
    | apos => exact step_apos h hp
    | note s => exact step_note h hp
    | auto u => exact step_auto h hp

theorem fill_ok {src : Bytes} (fuel : Nat) : ∀ {p : Inline.IP} {x : Ctx} {S : List Op} {T : List F} {Ts : List (List F)} {ls : List Span}, Live src p x S T Ts ls →
    ∀ {q : Inline.IP} {b : Bool}, p.fill fuel = .ok (q, b) →
      ∃ x' S' T', Live src q x' S' T' Ts ls ∧ total src q S' T' Ts = total src p S T Ts ∧
        (b = true → Ready q T' Ts) ∧ (b = false → T' = [] ∧ ls ≠ []) := by
  induction fuel using Nat.strongRecOn with
  | ind fuel ih =>
    intro p x S T Ts ls h q b hp
    cases fuel with
    | zero => cases hp
    | succ fuel =>
    unfold Inline.IP.fill at hp
    by_cases hm : p.needMore = true
    · rw [if_pos hm] at hp
      obtain ⟨⟨r, f⟩, h1, hp⟩ := bind_ok hp
      by_cases hT : T = []
      · subst hT
        have hx := h.end_ctx
        obtain ⟨l', n1, n2⟩ := (h.lex).next_none
        rw [parse_none n1] at h1
        have hd := h.done n2 (by rintro rfl; cases hx)
        by_cases hl : p.input.last = true
        · rw [if_pos hl] at h1
          cases h1
          cases hp
          have hls : ls = [] := by
            simp only [Inline.Input.last, Bool.and_eq_true, h.cpl] at hl
            simpa using hl.1
          have hTs := h.end_lines.mp hls
          refine ⟨x, S, [], hd, rfl, fun _ => ⟨?_, (hd.noVerb hx).1, .inr ⟨rfl, hTs⟩⟩, by simp⟩
          have hw := h.wf
          rw [hTs] at hw
          have := h.ops
          rw [hw.2] at this
          simpa using this
        · rw [if_neg hl] at h1
          cases h1
          have ha : p.input.ahead = [] := h.ahead
          simp only [ha] at hp
          cases hp
          have hd' := hd
          simp only [ha] at hd'
          refine ⟨x, S, [], hd', rfl, by simp, fun _ => ⟨rfl, ?_⟩⟩
          rintro rfl
          apply hl
          simp [Inline.Input.last, h.cpl, ha]
      · by_cases hl : ∃ image url T', T = .cls (.link image url) :: T'
        · obtain ⟨image, url, T', rfl⟩ := hl
          obtain ⟨rfl, hk⟩ := link_ok h h1
          obtain ⟨fuel', p', x', S', k0, k1, k2, k3⟩ := hk hp
          obtain ⟨x2, S2, T2, g1, g2, g3, g4⟩ := ih fuel' (by omega) k1 k3
          exact ⟨x2, S2, T2, g1, g2.trans k2, g3, g4⟩
        · obtain ⟨rfl, x', S', T', g1, g2⟩ := step h hT (fun image url T' he => hl ⟨image, url, T', he⟩) h1
          obtain ⟨x2, S2, T2, k1, k2, k3, k4⟩ := ih fuel (by omega) g1 hp
          exact ⟨x2, S2, T2, k1, k2.trans g2, k3, k4⟩
    · rw [if_neg hm] at hp
      cases hp
      refine ⟨x, S, T, h, rfl, fun _ => ?_, by simp⟩
      simp only [Inline.IP.needMore, Bool.or_eq_true, not_or, Bool.not_eq_true, Option.isSome_eq_false_iff] at hm
      obtain ⟨⟨⟨⟨h1, h2⟩, h3⟩, h4⟩, h5⟩ := hm
      refine ⟨by simpa using h2, by simpa using h3, .inl ?_⟩
      cases hg : p.events.getLast? with
      | none => rw [List.getLast?_eq_none_iff] at hg; rw [hg] at h1; cases h1
      | some e =>
        refine ⟨e, rfl, ?_⟩
        intro hk
        rw [hg] at h5
        simp [hk] at h5

/-! ## Emitting -/

theorem QOk.tail {n : Nat} {e : Inline.Event} {Q : List Inline.Event} {b : Nat} (h : QOk n (e :: Q) b) : QOk n Q b := by
  refine ⟨fun x hx => h.kinds x (by simp [hx]), fun x hx => h.spans x (by simp [hx]), ?_, ?_, ?_⟩
  · intro i x y h1 h2
    exact h.glued (i + 1) x y (by simpa using h1) (by simpa using h2)
  · intro x hx
    cases Q with
    | nil => simp at hx
    | cons y Q => exact h.last x (by rw [List.getLast?_cons_cons]; exact hx)
  · intro x hx
    cases Q with
    | nil => simp at hx
    | cons y Q => exact h.noph x (by rw [List.getLast?_cons_cons]; exact hx)

theorem textAt_join (src : Bytes) {a b c : Nat} (h1 : a ≤ b) (h2 : b ≤ c) : textAt src ⟨a, c⟩ = textAt src ⟨a, b⟩ ++ textAt src ⟨b, c⟩ := by
  unfold textAt
  simp only
  have h3 : c - a = (b - a) + (c - b) := by omega
  rw [h3, List.take_add, List.drop_drop]
  congr 3
  omega

/-- Merging text. -/
theorem merge_ok (src : Bytes) (st : List Bytes) {n b : Nat} : ∀ {Q : List Inline.Event} {sp : Span}, QOk n (⟨.str, sp⟩ :: Q) b → sp.start < sp.stop →
    ∃ sp' R, Inline.mergeStr sp Q = (sp', R) ∧ QOk n (⟨.str, sp'⟩ :: R) b ∧ sp'.start < sp'.stop ∧ (∀ e R', R = e :: R' → soft e.kind = false) ∧
      (∀ X, joined (.str (textAt src sp) :: (rawEvs src st Q ++ X)) = joined (.str (textAt src sp') :: (rawEvs src st R ++ X))) ∧
      (∀ e, R.getLast? = some e → Q.getLast? = some e) ∧ (R = [] → ∀ e, Q.getLast? = some e → soft e.kind = true) := by
  intro Q
  induction Q with
  | nil =>
    intro sp h hlt
    exact ⟨sp, [], rfl, h, hlt, by simp, fun X => rfl, by simp, by simp⟩
  | cons e Q ih =>
    intro sp h hlt
    by_cases hs : soft e.kind = true
    · have hglue : sp.stop = e.span.start := h.glued 0 ⟨.str, sp⟩ e rfl rfl rfl hs
      have hk : e.kind = .str ∨ e.kind = .placeholder := by
        cases hk : e.kind <;> first | exact .inl rfl | exact .inr rfl | (rw [hk] at hs; cases hs)
      have hsp := h.spans ⟨.str, sp⟩ (by simp)
      have hse := h.spans e (by simp)
      have h' : QOk n (⟨.str, ⟨sp.start, e.span.stop⟩⟩ :: Q) b := by
        refine ⟨?_, ?_, ?_, ?_, ?_⟩
        · intro x hx
          rcases List.mem_cons.mp hx with rfl | hx
          · rfl
          · exact h.kinds x (by simp [hx])
        · intro x hx
          rcases List.mem_cons.mp hx with rfl | hx
          · have := hsp.1
            simp only at this ⊢
            exact ⟨by omega, by simp⟩
          · exact h.spans x (by simp [hx])
        · intro i x y h1 h2 s1 s2
          cases i with
          | zero =>
            simp only [List.getElem?_cons_zero, Option.some.injEq] at h1
            subst h1
            exact h.glued 1 e y rfl (by simpa using h2) hs s2
          | succ i => exact h.glued (i + 2) x y (by simpa using h1) (by simpa using h2) s1 s2
        · intro x hx s1
          cases Q with
          | nil =>
            simp only [List.getLast?_singleton, Option.some.injEq] at hx
            subst hx
            exact h.last e (by simp) hs
          | cons y Q => exact h.last x (by rw [List.getLast?_cons_cons] at hx ⊢; rw [List.getLast?_cons_cons]; exact hx) s1
        · intro x hx
          cases Q with
          | nil =>
            simp only [List.getLast?_singleton, Option.some.injEq] at hx
            subst hx
            simp
          | cons y Q => exact h.noph x (by rw [List.getLast?_cons_cons] at hx ⊢; rw [List.getLast?_cons_cons]; exact hx)
      obtain ⟨sp', R, g1, g2, g2b, g3, g4, g5, g6⟩ := ih h' (by have := hse.1; simp only; omega)
      refine ⟨sp', R, ?_, g2, g2b, g3, ?_, ?_, ?_⟩
      · unfold Inline.mergeStr
        rw [if_pos ⟨hk, hglue⟩]
        exact g1
      · intro X
        rw [← g4 X]
        have htx : textAt src ⟨sp.start, e.span.stop⟩ = textAt src sp ++ textAt src e.span := by
          rw [textAt_join src (b := sp.stop) (by have := hsp.1; simpa using this) (by rw [hglue]; exact hse.1)]
          congr 1
          rw [hglue]
        rcases hk with hk | hk
        · have : rawEvs src st (e :: Q) = .str (textAt src e.span) :: rawEvs src st Q := by rw [rawEvs_cons]; unfold rawEv; rw [hk]; rfl
          rw [this, htx, joined_split]
          rfl
        · have : rawEvs src st (e :: Q) = rawEvs src st Q := by rw [rawEvs_cons]; unfold rawEv; rw [hk]; rfl
          rw [this]
          have hph : textAt src e.span = [] := by unfold textAt; rw [hse.2 hk]; simp
          rw [htx, hph, List.append_nil]
      · intro x hx
        have := g5 x hx
        cases Q with
        | nil => simp at this
        | cons y Q => rw [List.getLast?_cons_cons]; exact this
      · intro hR x hx
        cases Q with
        | nil =>
          simp only [List.getLast?_singleton, Option.some.injEq] at hx
          subst hx; exact hs
        | cons y Q => exact g6 hR x (by rw [List.getLast?_cons_cons] at hx; exact hx)
    · refine ⟨sp, e :: Q, ?_, h, hlt, ?_, fun X => rfl, by simp, by simp⟩
      · unfold Inline.mergeStr
        rw [if_neg]
        rintro ⟨hk | hk, _⟩ <;> (rw [hk] at hs; exact hs rfl)
      · intro e' R' he
        cases he
        simpa using hs


/-- An event that is reported. -/
structure Reported (src : Bytes) (st : List Bytes) (e : Inline.Event) (ev : Event) : Prop where
  kind : evOk st.length e.kind = true
  noph : e.kind ≠ .placeholder
  raw : rawEv src st e = [ev]

theorem raw_hard {src : Bytes} {st : List Bytes} {e : Inline.Event} (hk : evOk st.length e.kind = true) (hs : soft e.kind = false) : ∃ ev, Reported src st e ev ∧ notStr ev = true := by
  obtain ⟨k, sp⟩ := e
  cases k with
  | enter c => exact ⟨_, ⟨hk, by simp, rfl⟩, rfl⟩
  | exit c => exact ⟨_, ⟨hk, by simp, rfl⟩, rfl⟩
  | atom a =>
    refine ⟨_, ⟨hk, by simp, rfl⟩, ?_⟩
    cases a with
    | quote ty l => cases ty <;> cases l <;> rfl
    | _ => rfl
  | str => cases hs
  | placeholder => cases hs
  | attributes c i => cases hk
  | empty => cases hk

theorem getLast?_tail {e x : Inline.Event} {Q : List Inline.Event} (h : Q.getLast? = some x) : (e :: Q).getLast? = some x := by
  cases Q with
  | nil => simp at h
  | cons y Q => rw [List.getLast?_cons_cons]; exact h

theorem Live.notDol {src : Bytes} {p : Inline.IP} {x : Ctx} {S : List Op} {T : List F} {Ts : List (List F)} {ls : List Span} (h : Live src p x S T Ts ls)
    (hlast : (∃ e, p.events.getLast? = some e ∧ e.kind ≠ .str) ∨ (T = [] ∧ Ts = [])) : x ≠ .dol := by
  intro hx
  obtain ⟨d, ⟨n, s, T', hT⟩, hm⟩ := h.mth hx
  obtain ⟨Q, a, hQ, _⟩ := hm.last
  rcases hlast with ⟨e, h1, h2⟩ | ⟨h1, _⟩
  · rw [hQ] at h1
    simp only [List.getLast?_append, List.getLast?_singleton, Option.some_or, Option.some.injEq] at h1
    subst h1
    exact h2 rfl
  · rw [hT] at h1; cases h1

/-- Emitted events leave the queue. -/
theorem Live.shrink {src : Bytes} {p : Inline.IP} {x : Ctx} {S : List Op} {T : List F} {Ts : List (List F)} {ls : List Span} (h : Live src p x S T Ts ls) (ho : p.openers = []) (hv : p.verbatim = none)
    {Q : List Inline.Event} (hq : QOk p.storeCowstrs.length Q p.input.span.stop) (hl : ∀ e, Q.getLast? = some e → p.events.getLast? = some e)
    (hlast : (∃ e, p.events.getLast? = some e ∧ e.kind ≠ .str) ∨ (T = [] ∧ Ts = [])) : Live src { p with events := Q } x S T Ts ls := by
  refine ⟨h.hsrc, h.attr, h.ahead, h.cpl, h.lex, h.pos, h.bs, h.wsp, h.sp, h.ln, h.ops, ?_, ?_, ?_, hq, ?_, h.wf, h.lines, h.br, h.brs, ?_, ?_, fun hx => absurd hx (h.notDol hlast), h.pw⟩
  · intro o ho'; rw [show p.openers = [] from ho] at ho'; cases ho'
  · intro _ o ho'; rw [show p.openers = [] from ho] at ho'; cases ho'
  · cases x with
    | inCode n =>
      obtain ⟨v, hv', _⟩ := h.verb
      rw [hv] at hv'; cases hv'
    | _ => exact hv
  · intro e he; exact h.dol e (hl e he)
  · intro hx e he; exact h.bol hx e (hl e he)
  · intro hx hne
    obtain ⟨e, h1, h2⟩ := h.wd hx hne
    rcases hlast with ⟨e', h3, h4⟩ | ⟨rfl, rfl⟩
    · rw [h1] at h3; cases h3; exact absurd h2 h4
    · exact absurd rfl hne

theorem wordAttr_false {n : Nat} {Q : List Inline.Event} (h : ∀ e ∈ Q, evOk n e.kind = true) : Inline.wordAttrFront Q = false := by
  unfold Inline.wordAttrFront
  split
  · rename_i i sp rest
    have := h _ List.mem_cons_self
    cases this
  · rfl

/-- The next event of the inline parser. -/
theorem next_ok {src : Bytes} (fuel : Nat) : ∀ {p : Inline.IP} {x : Ctx} {S : List Op} {T : List F} {Ts : List (List F)} {ls : List Span}, Live src p x S T Ts ls →
    ∀ {q : Inline.IP} {o : Option Inline.Event}, p.next fuel = .ok (q, o) →
      match o with
      | some e => ∃ x' S' T' ev, Live src q x' S' T' Ts ls ∧ Reported src q.storeCowstrs e ev ∧ ((e.kind = .str → e.span.stop ≤ src.length) → total src p S T Ts = ev :: total src q S' T' Ts)
      | none => ∃ x' S', Live src q x' S' [] Ts ls ∧ total src q S' [] Ts = total src p S T Ts ∧ (ls = [] → total src q S' [] Ts = []) := by
  induction fuel with
  | zero => intro p x S T Ts ls h q o hp; cases hp
  | succ fuel ih =>
    intro p x S T Ts ls h q o hp
    unfold Inline.IP.next at hp
    obtain ⟨⟨p1, b⟩, h1, hp⟩ := bind_ok hp
    obtain ⟨x1, S1, T1, g1, g2, g3, g4⟩ := fill_ok _ h h1
    cases b with
    | false =>
      simp only [Bool.false_eq_true, if_false] at hp
      cases hp
      obtain ⟨rfl, hne⟩ := g4 rfl
      exact ⟨x1, S1, g1, g2, fun he => absurd he hne⟩
    | true =>
      simp only [if_true] at hp
      have hr := g3 rfl
      obtain ⟨p2, h2, hp0⟩ := bind_ok hp
      clear hp
      have : p2 = p1 := by
        unfold Inline.IP.autoClose at h2
        rw [hr.verb] at h2
        cases h2; rfl
      subst this
      have hp := hp0
      clear hp0
      have hres : ∀ R, resolve S1 [] R = R := by intro R; cases S1 <;> rfl
      have htot : ∀ Q, total src { p2 with events := Q } S1 T1 Ts = joined (rawEvs src p2.storeCowstrs Q ++ fraw (T1 ++ Ts.flatten)) := by
        intro Q
        rw [total_none (by exact hr.verb) (okF_notMath g1.wf (g1.notDol hr.last))]
        simp only [hr.ops, hres, flat_raws]
      have htot2 : total src p2 S1 T1 Ts = joined (rawEvs src p2.storeCowstrs p2.events ++ fraw (T1 ++ Ts.flatten)) := by
        rw [total_none hr.verb (okF_notMath g1.wf (g1.notDol hr.last))]
        simp only [hr.ops, hres, flat_raws]
      split at hp
      · rename_i hev
        cases hp
        rcases hr.last with ⟨e, he, _⟩ | ⟨rfl, rfl⟩
        · rw [hev] at he; simp at he
        · refine ⟨x1, S1, g1, g2, fun _ => ?_⟩
          rw [htot2, hev]
          rfl
      · rename_i e rest hev
        obtain ⟨⟨p3, o3⟩, h3, hp⟩ := bind_ok hp
        have hq : QOk p2.storeCowstrs.length (e :: rest) p2.input.span.stop := by rw [← hev]; exact g1.q
        have hwa : ∀ sp R, QOk p2.storeCowstrs.length (⟨.str, sp⟩ :: R) p2.input.span.stop → Inline.wordAttrFront R = false := fun sp R hR => wordAttr_false hR.tail.kinds
        by_cases hs : soft e.kind = true
        · obtain ⟨k, sp⟩ := e
          have hk : k = .str ∨ k = .placeholder := by
            cases k <;> first | exact .inl rfl | exact .inr rfl | cases hs
          rcases hk with rfl | rfl
          · unfold Inline.IP.emit at h3
            simp only at h3
            by_cases hemp : sp.isEmpty = true
            · have hwf : Inline.wordAttrFront rest = false := hwa _ _ hq
              simp only [hemp, hwf, Bool.not_false, Bool.and_self, if_true] at h3
              cases h3
              simp only at hp
              have hlive : Live src { p2 with events := rest } x1 S1 T1 Ts ls := g1.shrink hr.ops hr.verb hq.tail (fun e he => by rw [hev]; exact getLast?_tail he) hr.last
              have := ih hlive hp
              have hsp0 : textAt src sp = [] := by
                have h0 : sp.stop - sp.start = 0 := by
                  simp only [Span.isEmpty, Bool.not_eq_true', decide_eq_false_iff_not] at hemp
                  omega
                unfold textAt; rw [h0, List.take_zero]
              have ht : total src { p2 with events := rest } S1 T1 Ts = total src p S T Ts := by
                rw [← g2, htot, htot2, hev]
                have e1 : rawEvs src p2.storeCowstrs (⟨.str, sp⟩ :: rest) ++ fraw (T1 ++ Ts.flatten) = .str (textAt src sp) :: (rawEvs src p2.storeCowstrs rest ++ fraw (T1 ++ Ts.flatten)) := rfl
                rw [e1, hsp0, joined_empty]
              rw [ht] at this
              exact this
            have hlt : sp.start < sp.stop := by
              have := (hq.spans ⟨.str, sp⟩ (by simp)).1
              simp only [Span.isEmpty] at this hemp
              simp at hemp
              omega
            have hemp : sp.isEmpty = false := by simpa using hemp
            simp only [hemp, Bool.false_and, Bool.false_eq_true, if_false] at h3
            obtain ⟨⟨p4, e4⟩, h4, h3⟩ := bind_ok h3
            cases h3
            obtain ⟨sp', R, m1, m2, m2b, m3, m4, m5, m6⟩ := merge_ok src p2.storeCowstrs hq hlt
            unfold Inline.IP.mergeStrEvents at h4
            simp only [m1] at h4
            rw [hwa _ _ m2] at h4
            simp only [Bool.false_eq_true, if_false] at h4
            cases h4
            cases hp
            have hlive : Live src { p2 with events := R } x1 S1 T1 Ts ls := g1.shrink hr.ops hr.verb m2.tail (fun e he => by rw [hev]; exact getLast?_tail (m5 e he)) hr.last
            refine ⟨x1, S1, T1, .str (textAt src sp'), hlive, ⟨rfl, by simp, rfl⟩, fun hbd => ?_⟩
            rw [← g2, htot2, hev, htot]
            have e1 : rawEvs src p2.storeCowstrs (⟨.str, sp⟩ :: rest) ++ fraw (T1 ++ Ts.flatten) = .str (textAt src sp) :: (rawEvs src p2.storeCowstrs rest ++ fraw (T1 ++ Ts.flatten)) := rfl
            rw [e1, m4]
            have hne : textAt src sp' ≠ [] := by
              have hlt := m2b
              have hb := hbd rfl
              simp only at hb
              intro h7
              have := congrArg List.length h7
              simp only [textAt, List.length_take, List.length_drop, List.length_nil] at this
              omega
            cases R with
            | nil =>
              rcases hr.last with ⟨y, hy, hyk⟩ | ⟨rfl, rfl⟩
              · exfalso
                rw [hev] at hy
                cases rest with
                | nil => simp at hy; subst hy; exact hyk rfl
                | cons z rest =>
                  rw [List.getLast?_cons_cons] at hy
                  have h7 := m6 rfl y hy
                  have h8 := g1.q.noph y (by rw [hev, List.getLast?_cons_cons]; exact hy)
                  obtain ⟨ky, spy⟩ := y
                  cases ky <;> first | exact hyk rfl | exact h8 rfl | cases h7
              · exact joined_last hne
            | cons y R =>
              have hy := m3 y R rfl
              obtain ⟨ev, hev1, hev2⟩ := raw_hard (src := src) (st := p2.storeCowstrs) (m2.kinds y (by simp)) hy
              rw [rawEvs_cons, hev1.raw, List.append_assoc]
              exact joined_str hne hev2 _
          · unfold Inline.IP.emit at h3
            cases h3
            simp only at hp
            have hlive : Live src { p2 with events := rest } x1 S1 T1 Ts ls := g1.shrink hr.ops hr.verb hq.tail (fun e he => by rw [hev]; exact getLast?_tail he) hr.last
            have := ih hlive hp
            have ht : total src { p2 with events := rest } S1 T1 Ts = total src p S T Ts := by
              rw [← g2, htot, htot2, hev]; rfl
            rw [ht] at this
            exact this
        · have hs : soft e.kind = false := by simpa using hs
          have h3' : p3 = { p2 with events := rest } ∧ o3 = some e := by
            have h4 : Inline.IP.emit { p2 with events := rest } e = .ok ({ p2 with events := rest }, some e) := by
              clear h3 hp hq hev
              obtain ⟨k, sp⟩ := e
              cases k <;> first | rfl | (exact absurd hs (by simp [soft]))
            rw [h4] at h3
            simp only [Except.ok.injEq, Prod.mk.injEq] at h3
            exact ⟨h3.1.symm, h3.2.symm⟩
          obtain ⟨rfl, rfl⟩ := h3'
          cases hp
          have hlive : Live src { p2 with events := rest } x1 S1 T1 Ts ls := g1.shrink hr.ops hr.verb hq.tail (fun e he => by rw [hev]; exact getLast?_tail he) hr.last
          obtain ⟨ev, hev1, hev2⟩ := raw_hard (src := src) (st := p2.storeCowstrs) (hq.kinds e (by simp)) hs
          refine ⟨x1, S1, T1, ev, hlive, hev1, fun _ => ?_⟩
          rw [← g2, htot2, hev, htot, rawEvs_cons, hev1.raw]
          exact joined_cons hev2 _

end Jotdown.Round
