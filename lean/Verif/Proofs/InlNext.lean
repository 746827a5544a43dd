import Verif.Proofs.InlStep
/-! # The iterator of inline events -/
namespace Jotdown.Inline
open Jotdown
open Jotdown.Block
open Jotdown.Notation

variable {c : Cx}

/-! ## Verbatim text -/

/-- The opener of verbatim text ends with a backtick. -/
theorem VerbQ.tick {N : Notes} {v : VerbatimState} {os : List (Opener × Nat)} {lo hi : Nat} {es : List Event} (h : VerbQ N v os lo es hi) {op : Event}
    (hop : es[v.eventOpener]? = some op) (hlen : op.span.stop ≤ N.src.length) : N.src[op.span.stop - 1]? = some (c! '`') ∧ op.span.stop ≤ hi ∧ 0 < op.span.stop ∧ 0 < v.lenOpener := by
  obtain ⟨A, ph, op', S, ty, m, a1, a2, a3, a4, a5, a6, ⟨a7, pre, a7', a7''⟩, a8, a9, a10, a11⟩ := h.ex
  rw [a1, a2] at hop
  simp at hop
  subst hop
  have hl : (sliceOf N.src ⟨op'.span.start, op'.span.stop⟩).length = op'.span.stop - op'.span.start := slice_length hlen
  have hl2 := congrArg List.length a7''
  rw [show op'.span = ⟨op'.span.start, op'.span.stop⟩ from rfl, hl] at hl2
  simp [ticks] at hl2
  have hx : (sliceOf N.src ⟨op'.span.start, op'.span.stop⟩)[pre.length + v.lenOpener - 1]? = some (c! '`') := by
    rw [show (⟨op'.span.start, op'.span.stop⟩ : Span) = op'.span from rfl, a7'', List.getElem?_append_right (by omega)]
    unfold ticks
    rw [List.getElem?_replicate, if_pos (by omega)]
  have := (slice_get hx).1
  rw [show op'.span.start + (pre.length + v.lenOpener - 1) = op'.span.stop - 1 by omega] at this
  exact ⟨this, a10.le, by omega, a7⟩

/-- Verbatim text goes on in the next line. -/
theorem VLive.line {p p' : IP} (hq : QueueOk (nts c p) p.verbatim p.openers c.lo p.events p.input.span.stop) (he : EvsOk c.src p) (h : VLive c p) {l : Span}
    (hle : p.input.span.stop ≤ l.start) (hl : l.start ≤ l.stop) (hlen : l.stop ≤ c.src.length) (hn : p.input.span.stop < l.stop → NlStop c.src p.input.span.stop)
    (h1 : p'.verbatim = p.verbatim) (h2 : p'.events = p.events) (h3 : p'.input.span.stop = l.start) (h4 : p'.input.spanLine.stop = l.stop) : VLive c p' := by
  intro v op hv hop
  rw [h1] at hv
  rw [h2] at hop
  rw [h3, h4]
  rw [hv] at hq
  obtain ⟨t1, t2, t3, t4⟩ := VerbQ.tick hq hop (he op (List.mem_of_getElem? hop)).span.len
  obtain ⟨g1, -⟩ := h v op hv hop
  have hnl : p.input.span.stop < l.stop → op.span.stop ≤ p.input.span.stop - 1 ∧ 0 < p.input.span.stop ∧ c.src[p.input.span.stop - 1]? = some (c! '\n') := by
    intro hlt
    rcases hn hlt with h5 | ⟨h5, h6⟩
    · omega
    · refine ⟨?_, h5, h6⟩
      have : op.span.stop ≠ p.input.span.stop := by
        intro heq
        have t1' : c.src[op.span.stop - 1]? = some (c! '`') := t1
        rw [heq, h6] at t1'
        revert t1'; decide
      omega
  refine ⟨?_, ?_⟩
  · rintro i ⟨r1, r2, r3, r4, r5⟩
    by_cases heq : l.start = p.input.span.stop
    · rw [heq] at r2 r5; exact g1 i ⟨r1, r2, r3, r4, r5⟩
    · obtain ⟨n1, n2, n3⟩ := hnl (by omega)
      by_cases hin : i + v.lenOpener ≤ p.input.span.stop
      · exact g1 i ⟨r1, hin, r3, r4, .inr (r5.resolve_left (by omega))⟩
      · intro hsame
        by_cases hi : i ≤ p.input.span.stop - 1
        · have := r3 _ hi (by omega)
          rw [n3] at this
          revert this; decide
        · exact hsame _ n1 (by omega) n3
  · intro hsame hne
    have hlt : l.start < l.stop := by
      apply Nat.lt_of_not_le
      intro hge
      apply hne
      unfold sliceOf
      rw [show l.stop - l.start = 0 by omega]
      simp
    obtain ⟨n1, n2, n3⟩ := hnl (by omega)
    exact absurd n3 (hsame _ n1 (by omega))

/-! ## One token from the input -/

/-- Before a step from `p`. -/
def Cx.step (c : Cx) (p : IP) : Cx := { c with q := p.input.span.stop, al := p.input.ahead.length }

theorem Cx.Ok.step (hc : c.Ok) (p : IP) : (c.step p).Ok := ⟨hc.safe, hc.bd, hc.le⟩

theorem InpOk.step {i : Input} (h : InpOk c i) (p : IP) : InpOk (c.step p) i :=
  ⟨h.src, h.cpl, h.le, h.stop, h.bs, h.be, h.bl, h.rem, h.chain, h.nl, h.ls⟩

theorem InpOk.unstep {i : Input} {p : IP} (h : InpOk (c.step p) i) : InpOk c i :=
  ⟨h.src, h.cpl, h.le, h.stop, h.bs, h.be, h.bl, h.rem, h.chain, h.nl, h.ls⟩

theorem Live.unstep {p p' : IP} (h : Live (c.step p) p') : Live c p' :=
  ⟨h.inp.unstep, h.attr, h.queue, h.evs, h.store, h.last, h.pot, h.vb⟩

theorem Pending.unstep {p p' : IP} (h : Pending (c.step p) p') : Pending c p' := by
  obtain ⟨st, hw⟩ := h.wait
  exact ⟨⟨st, hw.inp.unstep, hw.attr, hw.verb, hw.shape, hw.evs, hw.store, hw.last, hw.pot, hw.tok, hw.found, hw.valid, hw.opn, hw.run⟩, h.cpl⟩

/-- The line was read to its end. -/
structure AtEnd (c : Cx) (p : IP) : Prop where
  live : Live c p
  stop : p.input.span.stop = p.input.spanLine.stop
  empty : p.input.span.start = p.input.span.stop

/-- The result of reading a token or the end of a line. -/
def EvOut (c : Cx) (p : IP) (r : IP × Flow) : Prop :=
  match r.2 with
  | .cont => Adv (c.step p) r.1
  | .more => Pending c r.1
  | .next => AtEnd c r.1 ∧ p.input.last = false ∧ r.1.input.ahead = p.input.ahead ∧ r.1.input.span.stop = p.input.span.stop
  | .done => AtEnd c r.1 ∧ p.input.last = true ∧ r.1.input.ahead = p.input.ahead

theorem Ate.mid {p : IP} (hc : c.Ok) (h : InpOk c p.input) (hv : p.attributes = none) (hq : QueueOk (nts c p) p.verbatim p.openers c.lo p.events p.input.span.stop)
    (he : EvsOk c.src p) (hst : ∀ a ∈ p.storeAttributes, GoodAttrs a) (hl : LastOk c.src p.events) (hp : pot c p p.input.span.stop ≤ c.K)
    (hvb : VLive c p) {t : Lex.Token} (ht : (p.input.resetSpan.eat).1 = some t) :
    Mid (c.step p) { p with input := (p.input.resetSpan.eat).2 } t ∧ (p.input.resetSpan.eat).2.span = ⟨p.input.span.stop, p.input.span.stop + t.len⟩ ∧
      Ate c p.input.resetSpan t (p.input.resetSpan.eat).2 := by
  have ha := h.reset.eat_some hc ht
  have hsp : (p.input.resetSpan.eat).2.span = ⟨p.input.span.stop, p.input.span.stop + t.len⟩ := ha.span
  have hpos := ha.pos
  have hs : (p.input.resetSpan.eat).2.span.start = p.input.span.stop := by rw [hsp]
  have hsl : (p.input.resetSpan.eat).2.spanLine = p.input.spanLine := ha.line
  have hstop : (p.input.resetSpan.eat).2.span.stop = p.input.span.stop + t.len := by rw [hsp]
  have hst2 := ha.inp.stop
  rw [hstop, hsl] at hst2
  have htk : sliceOf c.src ⟨p.input.span.stop, p.input.span.stop + t.len⟩ = (sliceOf c.src ⟨p.input.span.stop, p.input.spanLine.stop⟩).take t.len :=
    (slice_take (by omega)).symm
  refine ⟨⟨ha.inp.step p, hv, ?_, he, hst, hl, ?_, ?_, ?_, ?_, ?_, ?_, ?_, ?_, ?_, ?_⟩, hsp, ha⟩
  · simp only [hs]; exact hq.move rfl rfl (mem_lines hsl ha.ahead)
  · simp only [hs]; exact hp
  · simp only [hs, hstop]; omega
  · simp only [hstop, Cx.step]; omega
  · show (p.input.resetSpan.eat).2.ahead.length ≤ _
    rw [ha.ahead]; exact Nat.le_refl _
  · intro _
    have h1 := ha.text.1
    simp only [hsp, Span.len]
    refine ⟨?_, by omega⟩
    show Lex.TextOf (sliceOf c.src _) _
    rw [htk]
    exact h1
  · intro hk
    show Bracket (sliceOf c.src _)
    simp only [hsp]
    rw [htk]
    have h1 := ha.text.1
    rw [hk] at h1
    exact .inl h1
  · simp only [hs, hsl]; exact h.ls
  · intro hk
    have h1 := ha.text.2 hk
    simp only [hs, hsl]
    exact h1
  · intro v op hv' hop
    obtain ⟨g1, g2⟩ := hvb v op hv' hop
    simp only [hs, hsl]
    refine ⟨g1, fun hsame => ?_⟩
    have hne : sliceOf c.src ⟨p.input.span.stop, p.input.spanLine.stop⟩ ≠ [] := by
      intro hnil
      have := congrArg List.length hnil
      rw [slice_length (h.len hc)] at this
      simp at this
      omega
    obtain ⟨k1, k2⟩ := g2 hsame hne
    obtain ⟨v1, v2⟩ := ha.vm k2
    rw [hstop, hsl] at v2
    have e1 : sliceOf c.src ⟨p.input.span.stop + t.len, p.input.spanLine.stop⟩ = (sliceOf c.src ⟨p.input.span.stop, p.input.spanLine.stop⟩).drop t.len := slice_drop.symm
    refine ⟨?_, ?_, ?_, ?_⟩
    · intro hk
      apply k1
      have h1 := ha.text.1
      rw [hk] at h1
      have h2 : (sliceOf c.src ⟨p.input.span.stop, p.input.spanLine.stop⟩).take t.len = List.replicate ((sliceOf c.src ⟨p.input.span.stop, p.input.spanLine.stop⟩).take t.len).length (c! '`') := h1
      generalize sliceOf c.src ⟨p.input.span.stop, p.input.spanLine.stop⟩ = R at *
      cases R with
      | nil => exact absurd rfl hne
      | cons x R =>
        obtain ⟨m, hm⟩ : ∃ m, t.len = m + 1 := ⟨t.len - 1, by omega⟩
        rw [hm] at h2
        simp [List.replicate_succ] at h2
        simp [h2.1]
    · intro hk
      simp only [hstop]
      show (sliceOf c.src _).head? ≠ _
      rw [e1]
      exact v1.1 hk
    · intro hk
      simp only [hsp]
      show _ ∉ sliceOf c.src _
      rw [htk]
      exact v1.2 hk
    · simp only [hstop]; exact v2
  · intro hk
    exact ⟨(ha.esc hk).1, (ha.esc hk).2, ha.next (by rw [hk]; simp)⟩

theorem parseEvent_live (hc : c.Ok) {p : IP} (h : Live c p) : Sat Never p.parseEvent (EvOut c p) := by
  unfold IP.parseEvent
  cases ht : (p.input.resetSpan.eat).1 with
  | some t =>
    simp only
    obtain ⟨h1, h2, h3⟩ := Ate.mid hc h.inp h.attr h.queue h.evs h.store h.last h.pot h.vb ht
    refine (parseToken_ok (hc.step p) h1 h3.next ?_).mono ?_
    · intro hk
      have h4 := h3.text.1
      rw [hk] at h4
      simp only [h2]
      have hst := h3.inp.stop
      have hl : (p.input.resetSpan.eat).2.spanLine = p.input.spanLine := h3.line
      rw [h2, hl] at hst
      have h5 : (sliceOf c.src ⟨p.input.span.stop, p.input.spanLine.stop⟩).take t.len = b! "[" := h4
      rw [slice_take (by simpa using hst)] at h5
      exact h5
    intro r hr
    unfold Out at hr
    unfold EvOut
    split at hr
    · rename_i hk; rw [hk]; exact hr
    · rename_i hk; rw [hk]; exact hr.unstep
    · exact hr.elim
  | none =>
    simp only
    obtain ⟨h1, h2, h3⟩ := h.inp.reset.eat_none hc ht
    have h1' : p.input.span.stop = p.input.spanLine.stop := h1
    have hl : AtEnd c { p with input := (p.input.resetSpan.eat).2 } := by
      rw [h3]
      refine ⟨⟨InpOk.lex h.inp.reset ?_, h.attr, h.queue, h.evs, h.store, h.last, h.pot, ?_⟩, h1', rfl⟩
      have : sliceOf c.src ⟨p.input.resetSpan.span.stop, p.input.resetSpan.spanLine.stop⟩ = [] := by
        unfold sliceOf
        simp only [h1]
        simp
      · rw [this]
        exact h2
      · intro v op hv hop
        refine ⟨(h.vb v op hv hop).1, fun _ hne => absurd ?_ hne⟩
        show sliceOf c.src ⟨p.input.span.stop, p.input.spanLine.stop⟩ = []
        rw [h1']
        unfold sliceOf
        simp
    refine Sat.ok ?_
    unfold EvOut
    cases hla : p.input.last with
    | true =>
      simp only [if_true]
      refine ⟨hl, trivial, ?_⟩
      rw [h3]; rfl
    | false =>
      simp only [Bool.false_eq_true, if_false]
      refine ⟨hl, trivial, ?_, ?_⟩ <;> rw [h3] <;> rfl

/-- A line was fed while waiting. -/
structure Fed (c : Cx) (p : IP) : Prop where
  wait : ∃ st n, Wait c p st n ∧ n + 1 = p.input.ahead.length

theorem parseEvent_fed (hc : c.Ok) {p : IP} (h : Fed c p) : Sat Never p.parseEvent (fun r => (r.2 = .cont ∨ r.2 = .more) ∧ EvOut c p r) := by
  obtain ⟨st, n, hw, hn⟩ := h.wait
  have hlay := hw.shape.lay
  have ht : (p.input.resetSpan.eat).1 = some ⟨.opn .brace, 1⟩ := eat_of_peeked (by exact hw.tok)
  have hq : QueueOk (nts c { p with attributes := none }) ({ p with attributes := none } : IP).verbatim ({ p with attributes := none } : IP).openers c.lo
      ({ p with attributes := none } : IP).events ({ p with attributes := none } : IP).input.span.stop := by
    show QueueOk (nts c p) p.verbatim _ _ _ _
    rw [hw.verb]; exact hlay
  obtain ⟨h1, h2, h3⟩ := Ate.mid (p := { p with attributes := none }) hc hw.inp rfl hq hw.evs hw.store hw.last hw.pot (.none hw.verb) ht
  unfold IP.parseEvent
  rw [ht]
  simp only
  have hne := h3.next (by simp)
  have hs : (p.input.resetSpan.eat).2.span.start = p.input.span.stop := by rw [h2]
  have hstop : (p.input.resetSpan.eat).2.span.stop = p.input.span.stop + 1 := by rw [h2]
  have hsl : (p.input.resetSpan.eat).2.spanLine = p.input.spanLine := h3.line
  have hah : (p.input.resetSpan.eat).2.ahead = p.input.ahead := h3.ahead
  have hst := h3.inp.stop
  rw [hstop, hsl] at hst
  have hlines : (p.input.resetSpan.eat).2.lines p.input.span.stop = p.input.lines p.input.span.stop := by
    simp [Input.lines, hsl, hah]
  have hpre : Pre (c.step p) { p with input := (p.input.resetSpan.eat).2, attributes := none } st.elemTy p.input.span.stop :=
    ⟨h1.inp, rfl, hw.verb, hw.shape.move rfl rfl (mem_lines hsl hah), hw.evs, hw.store, hw.last, hw.pot, Nat.le_refl _, by simp [hah, Cx.step]⟩
  have hopen : c.src[p.input.span.stop]? = some (c! '{') := by
    have h4 := h3.text.1
    have h5 : (sliceOf c.src ⟨p.input.span.stop, p.input.spanLine.stop⟩).take 1 = [c! '{'] := h4
    have h6 : (sliceOf c.src ⟨p.input.span.stop, p.input.spanLine.stop⟩)[0]? = some (c! '{') := by
      cases hx : sliceOf c.src ⟨p.input.span.stop, p.input.spanLine.stop⟩ with
      | nil => rw [hx] at h5; simp at h5
      | cons a b => rw [hx] at h5; simp at h5; simp [h5]
    exact (slice_get (a := p.input.span.stop) (b := p.input.spanLine.stop) h6).1
  have hr := resume_ok (hc.step p) (n := n) hpre (by simp only [hsl]; exact hw.inp.ls) (by simp only [hsl]; omega) (by exact hw.inp.be) hopen
    (by simp only [hsl]; exact h3.text.2 rfl) (by simp only [hstop]; exact csub_ok (by omega)) (by simp only [hlines]; exact hw.found) hw.opn hw.valid (by simp only [hah]; omega)
    (by simp only [hlines]; exact hw.run)
  have := parseToken_resume (hc.step p) (p := { p with input := (p.input.resetSpan.eat).2 }) h1 hw.verb hw.attr hne hr
  refine this.mono ?_
  intro r hr
  unfold Out at hr
  unfold EvOut
  split at hr
  · rename_i hk; rw [hk]; exact ⟨.inl rfl, hr⟩
  · rename_i hk; rw [hk]; exact ⟨.inr rfl, hr.unstep⟩
  · exact hr.elim

/-! ## Parsing until an event can be emitted -/

/-- More input is needed. -/
structure Starved (c : Cx) (p : IP) : Prop where
  live : Live c p
  stop : p.input.span.stop = p.input.spanLine.stop
  ahead : p.input.ahead = []
  cpl : c.cpl = false

/-- All lines were read. -/
structure Final (c : Cx) (p : IP) : Prop where
  live : Live c p
  stop : p.input.span.stop = p.input.spanLine.stop
  last : p.input.last = true
  empty : p.input.span.start = p.input.span.stop

def FillOut (c : Cx) (r : IP × Bool) : Prop :=
  match r.2 with
  | true => (Live c r.1 ∧ r.1.needMore = false) ∨ Final c r.1
  | false => Starved c r.1 ∨ Pending c r.1

theorem last_eq {i : Input} : i.last = true ↔ i.complete = true ∧ i.ahead = [] := by
  unfold Input.last
  simp

theorem nextLine_ok (hc : c.Ok) {p : IP} (h : AtEnd c p) {l : Span} {rest : List Span} (ha : p.input.ahead = l :: rest) :
    Sat Never (p.nextLine l rest) (fun p' => Live c p' ∧ p.input.span.stop ≤ p'.input.span.stop ∧ p'.input.ahead = rest) := by
  have hch := h.live.inp.chain
  rw [ha] at hch
  cases hch with
  | cons h1 h2 h3 =>
    have hle : p.input.span.stop ≤ l.start := by rw [h.stop]; exact h1
    unfold IP.nextLine
    rw [setCurrentLine_ok (by exact h.live.inp.src) h2]
    simp only [Bind.bind, Except.bind]
    refine Sat.pure ⟨⟨h.live.inp.pop hc ha, h.live.attr, ?_, h.live.evs, h.live.store, h.live.last, ?_, ?_⟩, hle, rfl⟩
    · exact (h.live.queue.hi hle).move rfl rfl (by simp only; rw [ha]; intro x hx; exact List.mem_cons_of_mem _ hx)
    · have := h.live.pot
      unfold Inline.pot at *
      simp only at *
      omega
    · have hnl := h.live.inp.nl.1
      rw [ha] at hnl
      exact VLive.line h.live.queue h.live.evs h.live.vb hle h2.le h2.len (by rw [h.stop]; exact (List.pairwise_cons.1 hnl).1 l (by simp)) rfl rfl rfl rfl

/-- Tokens still to be read. -/
def IP.todo (p : IP) (n : Nat) : Nat := (n - p.input.span.stop) + p.input.ahead.length

theorem Adv.todo (hc : c.Ok) {p p' : IP} (h : Adv (c.step p) p') : p'.todo c.src.length < p.todo c.src.length := by
  have h1 := h.q
  have h2 := h.al
  have h3 := h.live.inp.stop
  have h4 := h.live.inp.len (hc.step p)
  simp only [Cx.step] at h1 h2 h4
  unfold IP.todo
  omega

theorem fill_ok (hc : c.Ok) : ∀ (fuel : Nat) {p : IP}, Live c p → p.todo c.src.length < fuel → Sat Never (p.fill fuel) (FillOut c) := by
  intro fuel
  induction fuel with
  | zero => intro p _ h; omega
  | succ fuel ih =>
    intro p h hf
    unfold IP.fill
    cases hn : p.needMore with
    | false =>
      simp only [Bool.false_eq_true, if_false]
      exact Sat.ok (.inl ⟨h, hn⟩)
    | true =>
      simp only [if_true]
      refine (parseEvent_live hc h).bind ?_
      intro r hr
      unfold EvOut at hr
      split at hr
      · rename_i hk
        rw [hk]
        exact ih hr.live.unstep (by have := hr.todo hc; omega)
      · rename_i hk
        rw [hk]
        exact Sat.pure (.inr hr)
      · rename_i hk
        obtain ⟨h1, h2, h3, h4⟩ := hr
        rw [hk]
        simp only
        cases ha : r.1.input.ahead with
        | nil =>
          refine Sat.pure (.inl ⟨h1.live, h1.stop, ha, ?_⟩)
          cases hcpl : c.cpl with
          | false => rfl
          | true =>
            have : p.input.last = true := last_eq.2 ⟨by rw [h.inp.cpl, hcpl], by rw [← h3, ha]⟩
            rw [h2] at this; cases this
        | cons l rest =>
          simp only
          refine (nextLine_ok hc h1 ha).bind ?_
          intro p' ⟨g1, g2, g3⟩
          refine ih g1 ?_
          unfold IP.todo at *
          rw [g3]
          rw [← h3, ha] at hf
          simp at hf
          omega
      · rename_i hk
        obtain ⟨h1, h2, h3⟩ := hr
        rw [hk]
        refine Sat.pure (.inr ⟨h1.live, h1.stop, ?_, h1.empty⟩)
        refine last_eq.2 ⟨?_, ?_⟩
        · rw [h1.live.inp.cpl, ← h.inp.cpl]; exact (last_eq.1 h2).1
        · rw [h3]; exact (last_eq.1 h2).2

theorem fill_fed (hc : c.Ok) {fuel : Nat} {p : IP} (h : Fed c p) (hf : p.todo c.src.length < fuel) : Sat Never (p.fill fuel) (FillOut c) := by
  cases fuel with
  | zero => omega
  | succ fuel =>
    unfold IP.fill
    have hn : p.needMore = true := by
      obtain ⟨st, n, hw, _⟩ := h.wait
      unfold IP.needMore
      rw [hw.attr]
      simp
    rw [hn]
    simp only [if_true]
    refine (parseEvent_fed hc h).bind ?_
    intro r ⟨h1, hr⟩
    unfold EvOut at hr
    rcases h1 with h1 | h1
    · rw [h1] at hr ⊢
      exact fill_ok hc fuel hr.live.unstep (by have := Adv.todo hc hr; omega)
    · rw [h1] at hr ⊢
      exact Sat.pure (.inr hr)

end Jotdown.Inline
