import Verif.Proofs.ParseStep
/-! # The events of the parser: leaves and the whole run -/
namespace Jotdown
open Jotdown

variable {src : Bytes} {pre : PrePass}

theorem InLeaf.ncap {c0 : Block.Container} {st : List Block.Container} {l : Block.Leaf} {inl es : List Block.Event} {x : Block.Event} {lo n : Nat} {p : Parser}
    (_ : InLeaf src pre c0 st l inl x es lo n p) (hf : l.isFed = false) : l ≠ .caption := by
  rintro rfl; cases hf

/-- The end of a leaf. -/
theorem leaf_exit {c0 : Block.Container} {st : List Block.Container} {l : Block.Leaf} {es : List Block.Event} {x : Block.Event} {lo n m : Nat} {p : Parser}
    (h : InLeaf src pre c0 st l [] x es lo n p) (hr : Inline.Rest src p.inlineParser) (hn : l ≠ .caption → n ≤ x.span.start) (hm : p.blocks.length * unit src ≤ m) :
    Sat Never p.blockStep (StepOut src pre (leafStack pre c0 st l p) (l == .caption) n m p) := by
  have hpre := h.com.pre_eq
  subst hpre
  have hsrc := h.com.src_eq
  subst hsrc
  have hup := unit_pos (src := p.src)
  have hB := h.blocks
  rw [List.nil_append] at hB
  rw [hB, List.length_cons, len_mul] at hm
  unfold Parser.blockStep
  simp only [hB, h.exit.kind]
  unfold Parser.nodeContainer
  obtain ⟨ip, hip, hleaf⟩ := leafContainer_sat p hr l false
  simp only [hleaf, Bind.bind, Except.bind, h.pend]
  have hv : (if l.isFed then p.verbatim else false) = false := by
    rw [h.verb]; cases l.isFed <;> rfl
  have hplace : place1 (leafStack p.prePass c0 st l p) (.end (pubL p.prePass p.tableHeadRow l)) = some ((c0 :: st).map (pubC p.prePass)) := by
    simp [leafStack, place1]
  refine Sat.pure ⟨⟨h.exit.span, trivial⟩, .inr ?_⟩
  have inv : ∀ k, Block.BT p.src (c0 :: st) k es → Inv p.src p.prePass ((c0 :: st).map (pubC p.prePass)) false k (es.length * unit p.src)
      { src := p.src, blocks := es, prePass := p.prePass, blockAttributes := none, tableHeadRow := p.tableHeadRow, verbatim := if l.isFed then p.verbatim else false, inlineParser := ip } := by
    intro k hk
    refine .base (.block (n := k) ⟨⟨rfl, rfl, h.com.defs, h.com.safe, h.com.bd⟩, hv, h.opn, h.row, hip.rest, hk, ?_⟩ ?_)
    · unfold Pend; exact Nat.le_refl _
    · exact Nat.le_refl _
  have hbt := h.bt
  by_cases hcap : l = .caption
  · rw [if_pos hcap] at hbt
    refine ⟨_, false, n, _, ?_, hplace, .inr (.inl ⟨?_, rfl, rfl⟩), inv n hbt⟩
    · omega
    · rw [(pubL_caption _ _).2 hcap]
  · rw [if_neg hcap] at hbt
    have hb : (l == Block.Leaf.caption) = false := by simpa using hcap
    refine ⟨_, false, x.span.stop, _, ?_, hplace, .inr (.inr ⟨fun hh => hcap ((pubL_caption _ _).1 hh), hb.symm, .inr ⟨hb, hn hcap, rfl⟩⟩), inv _ hbt⟩
    omega

/-- One step in a leaf before inline events. -/
theorem step_leaf {c0 : Block.Container} {st : List Block.Container} {l : Block.Leaf} {inl es : List Block.Event} {x : Block.Event} {lo n m : Nat} {p : Parser}
    (h : InLeaf src pre c0 st l inl x es lo n p) (hi : Inline.Idle src p.inlineParser) (hn : l ≠ .caption → n ≤ lo) (hm : p.blocks.length * unit src ≤ m) :
    Sat Never p.blockStep (StepOut src pre (leafStack pre c0 st l p) (l == .caption) n m p) := by
  have hch := h.chain
  cases inl with
  | nil =>
    refine leaf_exit h hi.rest ?_ hm
    intro hl
    have := hn hl
    have := hch.le
    omega
  | cons e inl =>
    have hpre := h.com.pre_eq
    subst hpre
    have hsrc := h.com.src_eq
    subst hsrc
    have hup := unit_pos (src := p.src)
    have hB := h.blocks
    rw [List.cons_append] at hB
    rw [hB, List.length_cons, len_mul] at hm
    unfold Parser.blockStep
    cases hch with
    | cons hk hsp hlo hnl hch =>
      simp only [hB, hk]
      have hnext : nextIs (inl ++ x :: es) .inline = !inl.isEmpty := by
        cases hch with
        | nil => simp [nextIs, h.exit.kind]
        | cons hk' _ _ _ _ => simp [nextIs, hk']
      have hle := hsp.le
      cases hf : l.isFed with
      | false =>
        have hv : p.verbatim = true := by rw [h.verb, hf]; rfl
        have hcap := h.ncap hf
        have hb : (l == Block.Leaf.caption) = false := by simpa using hcap
        have hlo' := hn hcap
        have hbt := h.bt
        rw [if_neg hcap] at hbt
        have inv : ∀ k m, k ≤ e.span.stop → (inl ++ x :: es).length * unit p.src ≤ m → InvB p.src p.prePass (leafStack p.prePass c0 st l p) false k m { p with blocks := inl ++ x :: es } := by
          intro k m hk' hm'
          have := InvB.leaf (src := p.src) (pre := p.prePass) (c0 := c0) (st := st) (l := l) (inl := inl) (x := x) (es := es) (lo := e.span.stop) (n := k) (m := m) (p := { p with blocks := inl ++ x :: es })
            ⟨⟨rfl, rfl, h.com.defs, h.com.safe, h.com.bd⟩, h.verb, h.opn, h.row, rfl, hch, h.exit, by rw [if_neg hcap]; exact hbt, h.pend⟩ hi (fun _ => hk') hm'
          rw [hb] at this
          exact this
        rw [if_pos hv]
        cases he : e.span.isEmpty with
        | true =>
          simp only [if_true]
          rw [hb]
          refine Sat.ok ⟨inv n m (by omega) (by omega), ?_⟩
          rw [hB]; simp
        | false =>
          simp only [Bool.false_eq_true, if_false]
          rw [hsp.slice]
          simp only [Bind.bind, Except.bind]
          have hlt : e.span.start < e.span.stop := by
            unfold Span.isEmpty at he
            simp at he
            omega
          rw [hb]
          refine Sat.pure ⟨⟨hsp, rfl, hlt⟩, .inr ⟨leafStack p.prePass c0 st l p, false, e.span.stop, _, ?_, ?_, .inr (.inr ⟨trivial, rfl, .inr ⟨rfl, by omega, rfl⟩⟩), .base (inv _ _ (Nat.le_refl _) (Nat.le_refl _))⟩⟩
          · omega
          · exact place1_occur (by simp [mayOccur, pubL_raw p.prePass p.tableHeadRow hf]) (by simp) (by simp)
      | true =>
        have hv : p.verbatim = false := by rw [h.verb, hf]; rfl
        rw [if_neg (by rw [hv]; simp)]
        rw [hnext, Bool.not_not]
        have hc : Inline.Cx.Ok ⟨p.src, e.span.stop, lo, 3 * p.src.length, inl.isEmpty, !inl.isEmpty, 0, 0⟩ := ⟨h.com.safe, h.com.bd, hsp.len⟩
        refine (hi.feed (c := ⟨p.src, e.span.stop, lo, 3 * p.src.length, inl.isEmpty, !inl.isEmpty, 0, 0⟩) h.com.safe hsp rfl hlo ?_ (Nat.le_refl _)).bind ?_
        · intro hmo
          rcases hnl hf with h | h
          · subst h; simp at hmo
          · exact h
        · intro ip hip
          refine Sat.pure ⟨?_, by rw [hB]; simp⟩
          have := Inv.text (src := p.src) (pre := p.prePass) (c0 := c0) (st := st) (l := l) (inl := inl) (x := x) (es := es) (lo := e.span.stop) (n := n) (m := m) (ist := [])
            (p := { p with blocks := inl ++ x :: es, inlineParser := ip }) (c := ⟨p.src, e.span.stop, lo, 3 * p.src.length, inl.isEmpty, !inl.isEmpty, 0, 0⟩)
            ⟨⟨rfl, rfl, h.com.defs, h.com.safe, h.com.bd⟩, h.verb, h.opn, h.row, rfl, hch, h.exit, h.bt, h.pend⟩ hf rfl hc rfl rfl rfl (Nat.le_refl _) hn (.live hip) (by
              have : unit p.src = 3 * p.src.length + 8 := rfl
              simp only
              omega)
          exact this

theorem InvB.step {S : List Container} {cap : Bool} {n m : Nat} {p : Parser} (h : InvB src pre S cap n m p) :
    Sat Never p.blockStep (StepOut src pre S cap n m p) := by
  cases h with
  | block h hm => exact step_block h hm
  | leaf h hi hn hm => exact step_leaf h hi hn hm

/-- There are no inline events. -/
theorem InvB.quiet {S : List Container} {cap : Bool} {n m : Nat} {p : Parser} (h : InvB src pre S cap n m p) :
    ∃ p', p.inline = .ok (p', none) ∧ InvB src pre S cap n m p' ∧ p'.blocks = p.blocks := by
  have key : ∀ {q : Parser} {ip : Inline.IP}, q.inlineParser.nextEvent = .ok (ip, none) → q.inline = .ok ({ q with inlineParser := ip }, none) := by
    intro q ip hq
    unfold Parser.inline
    rw [hq]
    rfl
  cases h with
  | block h hm =>
    obtain ⟨ip, h1, h2, -⟩ := h.rest.next
    exact ⟨_, key h1, .block (p := { p with inlineParser := ip }) ⟨⟨h.com.src_eq, h.com.pre_eq, h.com.defs, h.com.safe, h.com.bd⟩, h.verb, h.opn, h.row, h2, h.bt, h.pend⟩ hm, rfl⟩
  | leaf h hi hn hm =>
    obtain ⟨ip, h1, h2⟩ := hi.next
    exact ⟨_, key h1, .leaf (p := { p with inlineParser := ip }) ⟨⟨h.com.src_eq, h.com.pre_eq, h.com.defs, h.com.safe, h.com.bd⟩, h.verb, h.opn, h.row, h.blocks, h.chain, h.exit, h.bt, h.pend⟩ h2 hn hm, rfl⟩

/-- All lines so far were read: feed another one or end the leaf. -/
theorem step_wait {c0 : Block.Container} {st : List Block.Container} {l : Block.Leaf} {inl es : List Block.Event} {x : Block.Event} {lo n m : Nat} {p : Parser} {c : Inline.Cx}
    (h : InLeaf src pre c0 st l inl x es lo n p) (hf : l.isFed = true) (hsrc : c.src = src) (hc : c.Ok) (hH : c.H = lo) (hcpl : c.cpl = inl.isEmpty) (hmore : c.more = !inl.isEmpty)
    (hK : c.K ≤ 3 * src.length) (hn : l ≠ .caption → n ≤ c.lo) (hw : Inline.Starved c p.inlineParser ∨ Inline.Pending c p.inlineParser ∨ Inline.Fin c p.inlineParser)
    (hm : p.blocks.length * unit src + c.K + 1 ≤ m) :
    Sat Never p.blockStep (StepOut src pre (leafStack pre c0 st l p) (l == .caption) n m p) := by
  have hch := h.chain
  cases inl with
  | nil =>
    have hfin : Inline.Fin c p.inlineParser := by
      rcases hw with hw | hw | hw
      · have := hw.cpl; rw [hcpl] at this; cases this
      · have := hw.cpl; rw [hcpl] at this; cases this
      · exact hw
    have hle : c.lo ≤ x.span.start := by
      have ht := hfin.emit.tail
      rw [hfin.events] at ht
      have h1 : c.lo ≤ p.inlineParser.input.span.stop := by
        generalize c.lo = a at ht
        generalize p.inlineParser.input.span.stop = b at ht
        cases ht with
        | nil h => exact h
      have h2 := hfin.emit.base.inp.chain.le
      have h3 := hfin.stop
      have h4 := hch.le
      omega
    refine leaf_exit h (hsrc ▸ hfin.rest) ?_ (by omega)
    intro hl
    have := hn hl
    omega
  | cons e inl =>
    have hwait : Inline.Starved c p.inlineParser ∨ Inline.Pending c p.inlineParser := by
      rcases hw with hw | hw | hw
      · exact .inl hw
      · exact .inr hw
      · have := Fin.cpl hw; rw [hcpl] at this; cases this
    have hpre := h.com.pre_eq
    subst hpre
    have hs := h.com.src_eq
    subst hs
    have hB := h.blocks
    rw [List.cons_append] at hB
    rw [hB, List.length_cons, len_mul] at hm
    unfold Parser.blockStep
    cases hch with
    | cons hk hsp hlo hnl hch =>
      simp only [hB, hk]
      have hnext : nextIs (inl ++ x :: es) .inline = !inl.isEmpty := by
        cases hch with
        | nil => simp [nextIs, h.exit.kind]
        | cons hk' _ _ _ _ => simp [nextIs, hk']
      have hv : p.verbatim = false := by rw [h.verb, hf]; rfl
      rw [if_neg (by rw [hv]; simp)]
      rw [hnext, Bool.not_not]
      have hcs : ∀ {sp : Span}, Block.SpanOk p.src sp → Block.SpanOk c.src sp := by intro sp h; rw [hsrc]; exact h
      refine (wait_feed hc hwait (hcs hsp) (by omega) (last := inl.isEmpty) (more := !inl.isEmpty) (fun _ => by rw [hmore]; rfl) ?_).bind ?_
      · intro hmo
        refine ⟨by rw [hmore]; rfl, ?_⟩
        rw [hsrc]
        rcases hnl hf with h | h
        · subst h; simp at hmo
        · exact h
      · intro ip hip
        refine Sat.pure ⟨?_, by rw [hB]; simp⟩
        have := Inv.text (src := p.src) (pre := p.prePass) (c0 := c0) (st := st) (l := l) (inl := inl) (x := x) (es := es) (lo := e.span.stop) (n := n) (m := m) (ist := [])
          (p := { p with blocks := inl ++ x :: es, inlineParser := ip }) (c := c.line e.span inl.isEmpty (!inl.isEmpty))
          ⟨⟨rfl, rfl, h.com.defs, h.com.safe, h.com.bd⟩, h.verb, h.opn, h.row, rfl, hch, h.exit, h.bt, h.pend⟩ hf hsrc (line_ok hc (hcs hsp) _ _) rfl rfl rfl hK hn hip (by
            simp only [Inline.Cx.line]
            omega)
        exact this

/-- The result of asking for an inline event. -/
def InlineOut (src : Bytes) (pre : PrePass) (S : List Container) (cap : Bool) (n m : Nat) (p : Parser) (r : Parser × Option (Event × Span)) : Prop :=
  match r.2 with
  | some (e, sp) => OutEv src pre S cap n m r.1 e sp
  | none => Sat Never r.1.blockStep (StepOut src pre S cap n m r.1) ∧ r.1.blocks.length = p.blocks.length ∧ r.1.inlineParser.input.src = src

theorem Inv.inline {S : List Container} {cap : Bool} {n m : Nat} {p : Parser} (h : Inv src pre S cap n m p) :
    Sat Never p.inline (InlineOut src pre S cap n m p) := by
  cases h with
  | base h =>
    obtain ⟨p', h1, h2, h3⟩ := h.quiet
    rw [h1]
    refine Sat.ok ⟨h2.step, by rw [h3], ?_⟩
    cases h2 with
    | block h _ => exact h.rest.src_eq
    | leaf _ hi _ _ => exact hi.rest.src_eq
  | @text c0 st l inl x es lo n m p c ist hl hfed hsrc hc hH hcpl hmore hK hn hr hm =>
    have hpre := hl.com.pre_eq
    have hd := hl.com.defs
    rw [← hpre] at hd
    refine (inline_sat hc hsrc hl.com.src_eq hr hd).mono ?_
    intro ⟨p', r⟩ ⟨ip, he, hout⟩
    simp only at he hout
    subst he
    have hl' : InLeaf src pre c0 st l inl x es lo n { p with inlineParser := ip } :=
      ⟨⟨hl.com.src_eq, hl.com.pre_eq, hl.com.defs, hl.com.safe, hl.com.bd⟩, hl.verb, hl.opn, hl.row, hl.blocks, hl.chain, hl.exit, hl.bt, hl.pend⟩
    cases r with
    | some r =>
      obtain ⟨e, sp⟩ := r
      simp only at hout ⊢
      obtain ⟨c', ist', k1, k2, k3, k4, k5, k6, k7, -, k8⟩ := hout.ex
      refine ⟨hout.good, .inr ⟨(ist'.map Inline.Open.c).map (pubI pre ip.storeCowstrs) ++ leafStack pre c0 st l p, l == .caption, if l = .caption then n else sp.stop, p.blocks.length * unit src + c'.K + 1, ?_, ?_, .inr (.inr ⟨hout.nocap, rfl, ?_⟩), ?_⟩⟩
      · omega
      · have := k8 (pubL pre p.tableHeadRow l) ((c0 :: st).map (pubC pre)) (pubL_holds _ _ hfed)
        rw [hpre] at this
        exact this
      · by_cases hcap : l = .caption
        · left; exact ⟨by simpa using hcap, by rw [if_pos hcap]⟩
        · right
          refine ⟨by simpa using hcap, ?_, by rw [if_neg hcap]⟩
          have := hn hcap
          have := hout.lo
          omega
      · have hl2 : InLeaf src pre c0 st l inl x es lo (if l = .caption then n else sp.stop) { p with inlineParser := ip } := by
          refine ⟨hl'.com, hl'.verb, hl'.opn, hl'.row, hl'.blocks, hl'.chain, hl'.exit, ?_, hl'.pend⟩
          have := hl'.bt
          split <;> rename_i hcap
          · rw [if_pos hcap] at this; exact this
          · rw [if_neg hcap] at this; exact this
        exact Inv.text hl2 hfed (by rw [k1, hsrc]) ⟨by rw [k1]; exact hc.safe, by rw [k1]; exact hc.bd, by rw [k1, k2]; exact hc.le⟩ (by rw [k2, hH]) (by rw [k3, hcpl]) (by rw [k4, hmore]) (by omega)
          (fun hcap => by rw [if_neg hcap, k6]; exact Nat.le_refl _) (.emit k7) (Nat.le_refl _)
    | none =>
      simp only at hout ⊢
      obtain ⟨h1, h2⟩ := hout
      subst h1
      refine ⟨step_wait hl' hfed hsrc hc hH hcpl hmore hK hn h2 hm, rfl, ?_⟩
      rw [← hsrc]
      rcases h2 with h2 | h2 | h2
      · exact h2.live.inp.src
      · obtain ⟨_, hw⟩ := h2.wait
        exact hw.inp.src
      · exact h2.rest.src_eq

/-- `next_span`. -/
theorem nextSpan_sat : ∀ (fuel : Nat) {S : List Container} {cap : Bool} {n m : Nat} {p : Parser} {skip : Bool}, p.blocks.length < fuel →
    (if skip then Sat Never p.blockStep (StepOut src pre S cap n m p) else Inv src pre S cap n m p) → Sat Never (p.nextSpan fuel skip) (Out src pre S cap n m) := by
  intro fuel
  induction fuel with
  | zero => intro S cap n m p skip h _; omega
  | succ fuel ih =>
    intro S cap n m p skip hf h
    unfold Parser.nextSpan
    have after : ∀ {q : Parser}, q.blocks.length = p.blocks.length → Sat Never q.blockStep (StepOut src pre S cap n m q) →
        Sat Never (q.blockStep >>= fun x => match x with
          | (p, s) => match s with
            | .emit e sp => Pure.pure (p, some (e, sp))
            | .cont => Parser.nextSpan fuel p true
            | .fed => Parser.nextSpan fuel p false
            | .stop => match p.blockAttributes with
              | some (attrs, sp) => Pure.pure ({ p with blockAttributes := none }, some (.attributes attrs, sp))
              | none => Pure.pure (p, none)) (Out src pre S cap n m) := by
      intro q hq hs
      refine hs.bind ?_
      intro ⟨q', s⟩ hr
      cases s with
      | emit e sp => exact Sat.pure ⟨e, sp, rfl, hr⟩
      | cont => exact ih (by have := hr.2; simp only at this; omega) (by simpa using hr.1.step)
      | fed => exact ih (by have := hr.2; simp only at this; omega) (by simpa using hr.1)
      | stop => exact hr.elim
    cases skip with
    | true =>
      simp only [if_true] at h
      simp only [Parser.inlineUnless, if_true, Bind.bind, Except.bind]
      exact after rfl h
    | false =>
      simp only [Bool.false_eq_true, if_false] at h
      simp only [Parser.inlineUnless, Bool.false_eq_true, if_false]
      refine h.inline.bind ?_
      intro ⟨p', r⟩ hr
      cases r with
      | some r => exact Sat.pure ⟨r.1, r.2, rfl, hr⟩
      | none => exact after hr.2.1 hr.1

theorem next_sat {S : List Container} {cap : Bool} {n m : Nat} {p : Parser} (h : Inv src pre S cap n m p) :
    Sat Never p.next (Out src pre S cap n m) := by
  unfold Parser.next
  exact nextSpan_sat _ (Nat.lt_succ_self _) (by simpa using h)

theorem Done.next {p : Parser} (h : Done src p) : ∃ p', p.next = .ok (p', none) := by
  obtain ⟨ip, h1, -⟩ := h.rest.next
  refine ⟨{ p with inlineParser := ip }, ?_⟩
  unfold Parser.next Parser.nextSpan Parser.inlineUnless Parser.inline
  simp only [h1, Bool.false_eq_true, if_false, Bind.bind, Except.bind, Pure.pure, Except.pure]
  unfold Parser.blockStep
  simp only [h.blocks, h.pend]

/-- The events of a run. -/
structure RunOk (src : Bytes) (S : List Container) (cap : Bool) (n : Nat) (evs : List (Event × Span)) : Prop where
  good : ∀ e ∈ evs, Good src e.1 e.2
  ord : Block.orderedFrom n (mainSpans cap evs)
  tree : ∃ body sp, evs = body ++ [(.end .document, sp)] ∧ place S (body.map (·.1)) = some [.document]

theorem mainSpans_ordered {cap cap' : Bool} {n n' : Nat} {e : Event} {sp : Span} {evs : List (Event × Span)} (ho : Ordered cap n e sp cap' n') (hs : sp.start ≤ sp.stop)
    (h : Block.orderedFrom n' (mainSpans cap' evs)) : Block.orderedFrom n (mainSpans cap ((e, sp) :: evs)) := by
  rcases ho with ⟨a, rfl, rfl, rfl⟩ | ⟨rfl, rfl, rfl⟩ | ⟨hnc, rfl, ho⟩
  · unfold mainSpans; exact h
  · unfold mainSpans; exact h
  · have hms : mainSpans cap' ((e, sp) :: evs) = if cap' then mainSpans cap' evs else sp :: mainSpans cap' evs := by
      conv => lhs; unfold mainSpans
      split
      · exact absurd rfl hnc
      · exact absurd rfl hnc
      · rfl
    rw [hms]
    rcases ho with ⟨rfl, rfl⟩ | ⟨rfl, ho, rfl⟩
    · exact h
    · exact ⟨ho, hs, h⟩

theorem collect_run : ∀ (fuel : Nat) {S : List Container} {cap : Bool} {n m : Nat} {p : Parser}, Inv src pre S cap n m p → m + 1 < fuel →
    Sat Never (p.collect fuel) (RunOk src S cap n) := by
  intro fuel
  induction fuel with
  | zero => intro S cap n m p _ h; omega
  | succ fuel ih =>
    intro S cap n m p h hf
    unfold Parser.collect
    refine (next_sat h).bind ?_
    intro ⟨p', r⟩ ⟨e, sp, h1, h2⟩
    simp only at h1
    subst h1
    simp only
    rcases h2.next with ⟨rfl, rfl, rfl, hn, hd⟩ | ⟨S', cap', n', m', hm, hpl, ho, hi⟩
    · obtain ⟨p2, hp2⟩ := hd.next
      have : Parser.collect fuel p' = .ok [] := by
        cases fuel with
        | zero => omega
        | succ f => unfold Parser.collect; simp only [hp2, Bind.bind, Except.bind]; rfl
      simp only [this, Bind.bind, Except.bind]
      refine Sat.pure ⟨?_, ?_, [], sp, rfl, rfl⟩
      · intro e he
        simp at he
        subst he
        exact h2.good
      · exact mainSpans_ordered (cap' := false) (n' := sp.stop) (.inr (.inr ⟨by simp [NoCaption], rfl, .inr ⟨rfl, hn, rfl⟩⟩)) h2.good.span.le trivial
    · refine (ih hi (by omega)).bind ?_
      intro evs hr
      obtain ⟨body, sp', hb, hp⟩ := hr.tree
      refine Sat.pure ⟨?_, mainSpans_ordered ho h2.good.span.le hr.ord, (e, sp) :: body, sp', by rw [hb]; rfl, ?_⟩
      · intro x hx
        rcases List.mem_cons.1 hx with rfl | hx
        · exact h2.good
        · exact hr.good x hx
      · simp only [List.map_cons, place, hpl]
        exact hp

/-- All events of a document. -/
structure DocOk (src : Bytes) (evs : List (Event × Span)) : Prop where
  ex : ∃ rest, evs = (.start .document [], ⟨0, 0⟩) :: rest ∧ RunOk src [.document] false 0 rest

theorem offsetEvents_sat (hu : Utf8 src) : Sat (Block.Allowed src) (offsetEvents src) (DocOk src) := by
  have hs := hu.safe
  have hb := hu.bd
  unfold offsetEvents Parser.new
  cases hbl : Block.parse src with
  | error e =>
    have := Block.parse_shape hu
    rw [hbl] at this
    exact this
  | ok blocks =>
    obtain ⟨es, rfl, hbt⟩ := ((Block.parse_shape hu).of_ok hbl).bt
    obtain ⟨⟨pre, ip⟩, hpre, hd, hrest⟩ := (prePass_sat hs hb hbt (e := ⟨.enter (.container .document), ⟨0, 0⟩⟩) rfl).exists_ok
    simp only [Bind.bind, Except.bind, hpre]
    refine Block.Sat.lift ?_
    obtain ⟨ip2, hn, hrest2, -⟩ := hrest.next
    generalize hp0 : ({ src := src, blocks := ⟨.enter (.container .document), ⟨0, 0⟩⟩ :: es, prePass := pre, inlineParser := ip } : Parser) = p0
    have hnext : p0.next = .ok ({ src := src, blocks := es, prePass := pre, inlineParser := ip2 }, some (.start .document [], ⟨0, 0⟩)) := by
      subst hp0
      unfold Parser.next Parser.nextSpan Parser.inlineUnless Parser.inline
      simp only [hn, Bool.false_eq_true, if_false, Bind.bind, Except.bind, Pure.pure, Except.pure]
      rfl
    have hinv : Inv src pre [.document] false 0 (es.length * unit src) { src := src, blocks := es, prePass := pre, inlineParser := ip2 } := by
      refine .base (.block (st := [.document]) (n := 0) ⟨⟨rfl, rfl, hd, hs, hb⟩, rfl, .doc, ?_, hrest2, hbt, ?_⟩ ?_)
      · intro h st' heq; cases heq
      · unfold Pend; exact Nat.le_refl _
      · exact Nat.le_refl _
    have hfuel : ∃ f, p0.collectFuel = f + 1 ∧ es.length * unit src + 1 < f := by
      refine ⟨p0.collectFuel - 1, ?_, ?_⟩
      all_goals
        subst hp0
        unfold Parser.collectFuel
        simp only [List.length_cons]
        rw [show 3 * src.length + 8 = unit src from rfl, len_mul, len_mul]
        have := unit_pos (src := src)
        omega
    obtain ⟨f, hf1, hf2⟩ := hfuel
    show Sat Never (p0.collect p0.collectFuel) (DocOk src)
    rw [hf1]
    unfold Parser.collect
    simp only [hnext, Bind.bind, Except.bind]
    refine (collect_run f hinv hf2).bind ?_
    intro evs hr
    exact Sat.pure ⟨evs, rfl, hr⟩

end Jotdown
