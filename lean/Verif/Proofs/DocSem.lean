import Verif.Proofs.DocRun
import Verif.Proofs.Emit
/-! # The events of the parser are those of the specification in Spec/Doc: the proof -/
namespace Jotdown
open Jotdown

variable {src : Bytes} {pre : PrePass}

/-- Between blocks. -/
structure BlockM (src : Bytes) (p : Parser) (pend : List Span) : Prop where
  verb : p.verbatim = false
  bt : ∃ st n, Block.BT src st n p.blocks ∧ (pend ≠ [] → st ≠ [])
  rest : Inline.Rest src p.inlineParser
  pend : PendIs src p.blockAttributes pend

/-- In a leaf. -/
structure LeafM (src : Bytes) (l : Block.Leaf) (inl : List Block.Event) (x : Block.Event) (es : List Block.Event) (p : Parser) : Prop where
  verb : p.verbatim = !l.isFed
  blocks : p.blocks = inl ++ x :: es
  chain : ∃ lo hi, Block.InlChain src l.isFed lo inl hi
  exit : Block.Exits src x (.leaf l)
  bt : ∃ st n, Block.BT src st n es
  pend : p.blockAttributes = none

theorem isRaw_fed (l : Block.Leaf) : isRawLeaf l = !l.isFed := by cases l <;> rfl

/-- What a run yields. -/
structure Yields (src : Bytes) (pre : PrePass) (p : Parser) (skip : Bool) (evs : List (Event × Span)) : Prop where
  block : ∀ pend, BlockM src p pend → DocEvents src pre p.tableHeadRow pend p.blocks evs
  raw : ∀ l inl x es, LeafM src l inl x es p → l.isFed = false → Inline.Idle src p.inlineParser →
    ∃ rest, DocEvents src pre p.tableHeadRow [] es rest ∧
      evs = rawLines src (inl.map (·.span)) ++ (.end (nodeName (idAt pre) p.tableHeadRow (.leaf l)), x.span) :: rest
  lines : ∀ l inl x es, LeafM src l inl x es p → l.isFed = true → skip = true →
    ∃ cs rest, ReadsLines p.view (inl.map (·.span)) cs ∧ DocEvents src pre p.tableHeadRow [] es rest ∧
      evs = cs ++ (.end (nodeName (idAt pre) p.tableHeadRow (.leaf l)), x.span) :: rest
  text : ∀ l inl x es, LeafM src l inl x es p → l.isFed = true → skip = false →
    ∃ cs1 q cs2 rest, Reads p.view cs1 q ∧ ReadsLines q (inl.map (·.span)) cs2 ∧ DocEvents src pre p.tableHeadRow [] es rest ∧
      evs = cs1 ++ (cs2 ++ (.end (nodeName (idAt pre) p.tableHeadRow (.leaf l)), x.span) :: rest)

theorem reset_idle {ip ip' : Inline.IP} (h : ip.reset = .ok ip') (hs : ip.input.src = src) : Inline.Idle src ip' := by
  unfold Inline.IP.reset at h
  obtain ⟨_, h1, h⟩ := bind_ok h
  obtain ⟨_, h2, h⟩ := bind_ok h
  obtain ⟨_, h3, h⟩ := bind_ok h
  simp only [Pure.pure, Except.pure, Except.ok.injEq] at h
  subst h
  have d : ∀ {b : Bool} {u}, dassert b = .ok u → b = true := by
    intro b u h; unfold dassert at h; split at h
    · assumption
    · cases h
  have h1 := d h1; have h2 := d h2; have h3 := d h3
  refine ⟨⟨hs, by simpa using h1, by simpa using h2, by simpa using h3, rfl, .new (by simp) trivial⟩, rfl, rfl, rfl, rfl⟩

theorem leafContainer_idle {p p' : Parser} {l : Block.Leaf} {enter : Bool} {c : Container} (h : p.leafContainer l enter = .ok (p', c)) (hs : p.inlineParser.input.src = src) :
    ∃ ip, Inline.Idle src ip ∧ p' = { p with inlineParser := ip, verbatim := if l.isFed then p.verbatim else enter } ∧
      c = nodeName (idAt p.prePass) p.tableHeadRow (.leaf l) := by
  unfold Parser.leafContainer at h
  obtain ⟨ip, h1, h⟩ := bind_ok h
  refine ⟨ip, reset_idle h1 hs, ?_⟩
  rw [name_leaf]
  cases l <;> simp only [Pure.pure, Except.pure, Except.ok.injEq, Prod.mk.injEq] at h <;> obtain ⟨rfl, rfl⟩ := h <;> exact ⟨rfl, rfl⟩

theorem listContainer_name {ty : Block.ListType} {tight : Bool} {c : Container} (h : listContainer ty tight = .ok c) : c = listName tight ty := by
  have key : ∀ {b : UInt8} {x : Bullet}, Bullet.ofByte b = some x → x = if b = c! '-' then .dash else if b = c! '*' then .star else .plus := by
    intro b x h
    unfold Bullet.ofByte at h
    split at h
    · cases h; simp [*]
    · split at h
      · cases h; simp [*]
      · split at h
        · cases h; simp [*]
        · cases h
  unfold listContainer at h
  split at h
  · cases h; rfl
  · split at h
    · rename_i hb; cases h; rw [key hb]; rfl
    · cases h
  · split at h
    · rename_i hb; cases h; rw [key hb]; rfl
    · cases h
  · cases h; rfl

theorem blockContainer_name {p p' : Parser} {c : Block.Container} {enter : Bool} {c' : Container} (head : Bool) (h : p.blockContainer c enter = .ok (p', c')) :
    p' = p.atRow c enter ∧ c' = nodeName (idAt p.prePass) head (.container c) := by
  cases c with
  | list ty tight =>
    unfold Parser.blockContainer at h
    obtain ⟨d, h1, h⟩ := bind_ok h
    simp only [Pure.pure, Except.pure, Except.ok.injEq, Prod.mk.injEq] at h
    obtain ⟨rfl, rfl⟩ := h
    exact ⟨rfl, listContainer_name h1⟩
  | listItem k => cases k <;> cases h <;> exact ⟨rfl, rfl⟩
  | _ => cases h; exact ⟨rfl, rfl⟩

/-- The first line is read in the same way from every parser that waits for it. -/
theorem idle_lines {p : Parser} (hp : p.src = src) (hq : p.prePass = pre) (hi : Inline.Idle src p.inlineParser) {ls : List Span} {cs : List (Event × Span)}
    (hl : ∀ l ∈ ls, Block.SpanOk src l) (h : ReadsLines p.view ls cs) : ReadsLines (freshParser src pre) ls cs := by
  cases h with
  | nil => exact .nil
  | @cons _ ip p' l ls es es' h1 h2 h3 =>
    refine .cons (ip := ip) ?_ ?_ h3
    · have h4 := Inline.feedLine_empty hi.rest.src_eq hi.cpl hi.rest.rem hi.rest.ahead (hl l (by simp)) ls.isEmpty
      have h5 : p.inlineParser.feedLine l ls.isEmpty = .ok ip := h1
      unfold Inline.IP.feedLine at h5
      rw [h4] at h5
      simp only [Bind.bind, Except.bind, Pure.pure, Except.pure, Except.ok.injEq] at h5
      have hn := Inline.Idle.new src
      have h6 := Inline.feedLine_empty hn.rest.src_eq hn.cpl hn.rest.rem hn.rest.ahead (hl l (by simp)) ls.isEmpty
      show (Inline.IP.new src).feedLine l ls.isEmpty = _
      unfold Inline.IP.feedLine
      rw [h6]
      simp only [Bind.bind, Except.bind, Pure.pure, Except.pure, Except.ok.injEq]
      rw [← h5]
      have h7 := hi.rest.events; have h8 := hi.rest.attr; have h9 := hi.rest.verb; have h10 := hi.openers; have h11 := hi.cow; have h12 := hi.attrs
      have h13 := hi.rest.ahead; have h14 := hi.rest.src_eq
      generalize p.inlineParser = q at *
      obtain ⟨⟨isrc, ilex, icpl, isl, iah, isp⟩, qo, qe, qv, qa, qc, qs⟩ := q
      simp only at h7 h8 h9 h10 h11 h12 h13 h14
      subst h7 h8 h9 h10 h11 h12 h13 h14
      rfl
    · have : ({ p.view with inlineParser := ip } : Parser) = { freshParser src pre with inlineParser := ip } := by
        unfold Parser.view freshParser
        rw [hp, hq]
      rw [← this]
      exact h2

theorem chain_span {fed : Bool} {lo hi : Nat} {inl : List Block.Event} (h : Block.InlChain src fed lo inl hi) :
    (∀ i ∈ inl, i.kind = .inline) ∧ ∀ l ∈ inl.map (·.span), Block.SpanOk src l := by
  induction h with
  | nil => simp
  | cons h1 h2 _ _ _ ih => exact ⟨by simpa [h1] using ih.1, by simpa [h2] using ih.2⟩

theorem step_kind {p : Parser} {ev : Block.Event} {es : List Block.Event} (h : p.blocks = ev :: es) :
    p.blockStep = match ev.kind with
    | .atom .blankline => do
      dassert p.blockAttributes.isNone
      pure ({ p with blocks := es }, .emit .blankline ev.span)
    | .atom .thematicBreak =>
      let (p, attrs, sp) := p.takeAttrs ev.span
      .ok ({ p with blocks := es }, .emit (.thematicBreak attrs) sp)
    | .atom .attributes => p.blockAttrs ev.span es
    | .enter n => do
      let (p, c) ← p.nodeContainer n true
      let (p, attrs, sp) := p.takeAttrs ev.span
      pure ({ p with blocks := es }, .emit (.start c attrs) sp)
    | .exit n => do
      let (p, c) ← p.nodeContainer n false
      match p.blockAttributes with
      | some (attrs, sp) => pure ({ p with blockAttributes := none }, .emit (.attributes attrs) sp)
      | none => pure ({ p with blocks := es }, .emit (.end c) ev.span)
    | .inline =>
      if p.verbatim then
        if ev.span.isEmpty then .ok ({ p with blocks := es }, .cont)
        else do
          let s ← strSlice p.src ev.span.start ev.span.stop
          pure ({ p with blocks := es }, .emit (.str s) ev.span)
      else do
        let ip ← p.inlineParser.feedLine ev.span (!nextIs es .inline)
        pure ({ p with blocks := es, inlineParser := ip }, .fed)
    | .stale => .ok ({ p with blocks := es }, .cont) := by
  conv => lhs; unfold Parser.blockStep
  rw [h]
  rfl

/-- The exit of a leaf. -/
theorem exit_step {p p' : Parser} {s : Step} {l : Block.Leaf} {x : Block.Event} {es : List Block.Event} (h : p.blockStep = .ok (p', s)) (hm : LeafM src l [] x es p)
    (hs : p.inlineParser.input.src = src) : ∃ ip, Inline.Idle src ip ∧ p' = { p with inlineParser := ip, verbatim := false, blocks := es, blockAttributes := none } ∧
      s = .emit (.end (nodeName (idAt p.prePass) p.tableHeadRow (.leaf l))) x.span ∧ BlockM src p' [] := by
  have hb := hm.blocks
  rw [List.nil_append] at hb
  rw [step_kind hb, hm.exit.kind] at h
  simp only at h
  obtain ⟨⟨q, c⟩, h1, h⟩ := bind_ok h
  obtain ⟨ip, hi, rfl, rfl⟩ := leafContainer_idle h1 hs
  simp only [hm.pend, Pure.pure, Except.pure, Except.ok.injEq, Prod.mk.injEq] at h
  obtain ⟨rfl, rfl⟩ := h
  have hv : (if l.isFed then p.verbatim else false) = false := by rw [hm.verb]; cases l.isFed <;> rfl
  rw [hv]
  obtain ⟨st, n, hbt⟩ := hm.bt
  exact ⟨ip, hi, rfl, rfl, rfl, ⟨st, n, hbt, by simp⟩, hi.rest, .inl ⟨rfl, by first | rfl | exact hm.pend⟩⟩

/-- A line of a leaf that is parsed. -/
theorem feed_step {p p' : Parser} {s : Step} {l : Block.Leaf} {i x : Block.Event} {inl es : List Block.Event} (h : p.blockStep = .ok (p', s)) (hm : LeafM src l (i :: inl) x es p)
    (hf : l.isFed = true) : s = .fed ∧ ∃ ip, p.inlineParser.feedLine i.span inl.isEmpty = .ok ip ∧ p' = { p with blocks := inl ++ x :: es, inlineParser := ip } ∧
      LeafM src l inl x es p' := by
  have hb := hm.blocks
  rw [List.cons_append] at hb
  obtain ⟨lo, hi, hc⟩ := hm.chain
  cases hc with
  | cons hk hsp hlo hnl hch =>
    rw [step_kind hb, hk] at h
    have hv : p.verbatim = false := by rw [hm.verb, hf]; rfl
    simp only at h
    rw [if_neg (by simp [hv])] at h
    have hnext : nextIs (inl ++ x :: es) .inline = !inl.isEmpty := by
      cases hch with
      | nil => simp [nextIs, hm.exit.kind]
      | cons hk' _ _ _ _ => simp [nextIs, hk']
    rw [hnext, Bool.not_not] at h
    obtain ⟨ip, h1, h⟩ := bind_ok h
    simp only [Pure.pure, Except.pure, Except.ok.injEq, Prod.mk.injEq] at h
    obtain ⟨rfl, rfl⟩ := h
    exact ⟨rfl, ip, h1, rfl, by rw [hf]; exact hv, rfl, ⟨_, _, hch⟩, hm.exit, hm.bt, hm.pend⟩

/-- A line of a leaf that is not parsed. -/
theorem raw_step {p p' : Parser} {s : Step} {l : Block.Leaf} {i x : Block.Event} {inl es : List Block.Event} (h : p.blockStep = .ok (p', s)) (hm : LeafM src l (i :: inl) x es p)
    (hf : l.isFed = false) (hs : p.src = src) : p' = { p with blocks := inl ++ x :: es } ∧ LeafM src l inl x es p' ∧
      ((s = .cont ∧ i.span.start = i.span.stop) ∨ (s = .emit (.str (textAt src i.span)) i.span ∧ i.span.start ≠ i.span.stop)) := by
  subst hs
  have hb := hm.blocks
  rw [List.cons_append] at hb
  obtain ⟨lo, hi, hc⟩ := hm.chain
  cases hc with
  | cons hk hsp hlo hnl hch =>
    rw [step_kind hb, hk] at h
    have hv : p.verbatim = true := by rw [hm.verb, hf]; rfl
    simp only at h
    rw [if_pos hv] at h
    have hle := hsp.le
    have hm' : LeafM p.src l inl x es { p with blocks := inl ++ x :: es } := ⟨by rw [hf]; exact hv, rfl, ⟨_, _, hch⟩, hm.exit, hm.bt, hm.pend⟩
    split at h
    · rename_i he
      simp only [Except.ok.injEq, Prod.mk.injEq] at h
      obtain ⟨rfl, rfl⟩ := h
      refine ⟨rfl, hm', .inl ⟨rfl, ?_⟩⟩
      · unfold Span.isEmpty at he; simp at he; omega
    · rename_i he
      rw [hsp.slice] at h
      simp only [Bind.bind, Except.bind, Pure.pure, Except.pure, Except.ok.injEq, Prod.mk.injEq] at h
      obtain ⟨rfl, rfl⟩ := h
      refine ⟨rfl, hm', .inr ⟨rfl, ?_⟩⟩
      · unfold Span.isEmpty at he; simp at he; omega

/-- One step between blocks. -/
theorem block_step {p p' : Parser} {s : Step} {pend : List Span} (h : p.blockStep = .ok (p', s)) (hm : BlockM src p pend) (hs : p.src = src) (hpre : p.prePass = pre)
    (hsafe : Safe src) (evs : List (Event × Span))
    (cont : s = .cont → ∀ pend, BlockM src p' pend → DocEvents src pre p'.tableHeadRow pend p'.blocks evs)
    (emit : ∀ e sp, s = .emit e sp → ∃ evs', evs = (e, sp) :: evs' ∧ (∀ pend, BlockM src p' pend → DocEvents src pre p'.tableHeadRow pend p'.blocks evs') ∧
      ∀ l inl x es, LeafM src l inl x es p' → Inline.Idle src p'.inlineParser → p'.src = src → p'.prePass = pre → ∃ cs rest, Content src pre l (inl.map (·.span)) cs ∧ DocEvents src pre p'.tableHeadRow [] es rest ∧
        evs' = cs ++ (.end (nodeName (idAt pre) p'.tableHeadRow (.leaf l)), x.span) :: rest)
    (stop : s = .stop → p'.blockAttributes = none → evs = []) : s ≠ .fed ∧ DocEvents src pre p.tableHeadRow pend p.blocks evs := by
  subst hs hpre
  obtain ⟨st, n, hbt, hpst⟩ := hm.bt
  generalize hB : p.blocks = B at hbt
  cases hbt with
  | done =>
    unfold Parser.blockStep at h
    rw [hB] at h
    simp only [Except.ok.injEq, Prod.mk.injEq] at h
    obtain ⟨rfl, rfl⟩ := h
    have hp : pend = [] := by
      cases pend with
      | nil => rfl
      | cons a b => exact absurd rfl (hpst (by simp))
    subst hp
    have hno : p.blockAttributes = none := by
      rcases hm.pend with ⟨-, h⟩ | ⟨ini, sp, h, -⟩
      · exact h
      · simp at h
    rw [stop rfl hno]
    exact ⟨by simp, .nil⟩
  | @atom c st' n' e a es hk hsp ha hin hn hbt =>
    rw [step_kind hB, hk] at h
    cases a with
    | blankline =>
      simp only at h
      obtain ⟨_, h1, h⟩ := bind_ok h
      simp only [Pure.pure, Except.pure, Except.ok.injEq, Prod.mk.injEq] at h
      obtain ⟨rfl, rfl⟩ := h
      have hno : p.blockAttributes = none := by
        unfold dassert at h1
        split at h1
        · rename_i hh; simpa using hh
        · cases h1
      have hp : pend = [] := by
        rcases hm.pend with ⟨h, -⟩ | ⟨ini, sp, -, h⟩
        · exact h
        · rw [hno] at h; cases h
      subst hp
      obtain ⟨evs', rfl, h2, -⟩ := emit _ _ rfl
      exact ⟨by simp, .blankline hk (h2 [] ⟨hm.verb, ⟨_, _, hbt, by simp⟩, hm.rest, .inl ⟨rfl, hno⟩⟩)⟩
    | thematicBreak =>
      simp only at h
      rw [hm.pend.take] at h
      simp only [Except.ok.injEq, Prod.mk.injEq] at h
      obtain ⟨rfl, rfl⟩ := h
      obtain ⟨evs', rfl, h2, -⟩ := emit _ _ rfl
      exact ⟨by simp, .thematicBreak hk (h2 [] ⟨hm.verb, ⟨_, _, hbt, by simp⟩, hm.rest, .inl ⟨rfl, rfl⟩⟩)⟩
    | attributes =>
      simp only at h
      obtain ⟨a1, hk1, hp1⟩ := attrOk_keys hsafe hsp ha
      have hat := attrsAt_eq hp1
      unfold Parser.blockAttrs at h
      have hget : ∃ a0 s0, p.blockAttributes.getD ([], e.span) = (a0, s0) ∧ a0 = attrsIn p.src pend ∧ (⟨s0.start, e.span.stop⟩ : Span) = cover (pend ++ [e.span]) e.span := by
        rcases hm.pend with ⟨rfl, h⟩ | ⟨ini, sp, rfl, h⟩
        · exact ⟨[], e.span, by rw [h]; rfl, rfl, rfl⟩
        · refine ⟨_, _, by rw [h]; rfl, rfl, ?_⟩
          cases ini <;> rfl
      obtain ⟨a0, s0, g1, g2, g3⟩ := hget
      rw [g1] at h
      simp only at h
      rw [hsp.slice] at h
      simp only [Bind.bind, Except.bind] at h
      rw [hp1] at h
      simp only at h
      have hin' : a0 ++ a1 = attrsIn p.src (pend ++ [e.span]) := by
        rw [g2]; simp [attrsIn, hat]
      rw [g3, hin'] at h
      cases hb : nextIs es (.atom .blankline) with
      | true =>
        rw [hb] at h
        simp only [if_true, Pure.pure, Except.pure, Except.ok.injEq, Prod.mk.injEq] at h
        obtain ⟨rfl, rfl⟩ := h
        obtain ⟨evs', rfl, h2, -⟩ := emit _ _ rfl
        refine ⟨by simp, .attributes hk ?_⟩
        have h3 := h2 [] ⟨hm.verb, ⟨_, _, hbt, by simp⟩, hm.rest, .inl ⟨rfl, rfl⟩⟩
        simp only at h3
        cases es with
        | nil => simp [nextIs] at hb
        | cons b es =>
          have hkb : b.kind = .atom .blankline := by simpa [nextIs] using hb
          cases h3 with
          | blankline _ h4 =>
            have := DocEvents.blankline (pend := pend ++ [e.span]) hkb h4
            rw [flush_snoc] at this
            exact this
          | stale h => rw [hkb] at h; cases h
          | attributes h => rw [hkb] at h; cases h
          | thematicBreak h => rw [hkb] at h; cases h
          | enter h => rw [hkb] at h; cases h
          | exit h => rw [hkb] at h; cases h
          | leaf h => rw [hkb] at h; cases h
      | false =>
        rw [hb] at h
        simp only [Bool.false_eq_true, if_false, Pure.pure, Except.pure, Except.ok.injEq, Prod.mk.injEq] at h
        obtain ⟨rfl, rfl⟩ := h
        refine ⟨by simp, .attributes hk ?_⟩
        exact cont rfl (pend ++ [e.span]) ⟨hm.verb, ⟨_, _, hbt, by simp⟩, hm.rest, .inr ⟨pend, e.span, rfl, rfl⟩⟩
  | @stale c st' n' e es hk hb hbt =>
    rw [step_kind hB, hk] at h
    simp only [Except.ok.injEq, Prod.mk.injEq] at h
    obtain ⟨rfl, rfl⟩ := h
    exact ⟨by simp, .stale hk (cont rfl pend ⟨hm.verb, ⟨_, _, hbt, by simp⟩, hm.rest, hm.pend⟩)⟩
  | @enter c d st' n' e es he hc hf hbt =>
    rw [step_kind hB, he.kind] at h
    unfold Parser.nodeContainer at h
    simp only [blockContainer_sat p true hf, Bind.bind, Except.bind] at h
    have hpend : PendIs p.src (p.atRow d true).blockAttributes pend := by cases d <;> exact hm.pend
    rw [hpend.take] at h
    simp only [Pure.pure, Except.pure, Except.ok.injEq, Prod.mk.injEq] at h
    obtain ⟨rfl, rfl⟩ := h
    obtain ⟨evs', rfl, h2, -⟩ := emit _ _ rfl
    refine ⟨by simp, ?_⟩
    rw [← name_cont hf p.tableHeadRow]
    refine .enter he.kind ?_
    have h3 := h2 [] ⟨by cases d <;> exact hm.verb, ⟨_, _, hbt, by simp⟩, by cases d <;> exact hm.rest, .inl ⟨rfl, rfl⟩⟩
    have h4 : (p.atRow d true).tableHeadRow = rowIn p.tableHeadRow d := by cases d <;> rfl
    simp only [h4] at h3
    exact h3
  | @exit c st' n' e es he hn hbt =>
    have hbt' : Block.BT p.src (c :: st') n (e :: es) := .exit he hn hbt
    rw [step_kind hB, he.kind] at h
    unfold Parser.nodeContainer at h
    obtain ⟨⟨q, c'⟩, h1, h⟩ := bind_ok h
    obtain ⟨rfl, rfl⟩ := blockContainer_name p.tableHeadRow h1
    have hat : p.atRow c false = p := by cases c <;> rfl
    rw [hat] at h
    simp only at h
    rcases hm.pend with ⟨rfl, hno⟩ | ⟨ini, sp, rfl, hba⟩
    · rw [hno] at h
      simp only [Pure.pure, Except.pure, Except.ok.injEq, Prod.mk.injEq] at h
      obtain ⟨rfl, rfl⟩ := h
      obtain ⟨evs', rfl, h2, -⟩ := emit _ _ rfl
      exact ⟨by simp, .exit he.kind (h2 [] ⟨hm.verb, ⟨_, _, hbt, by simp⟩, hm.rest, .inl ⟨rfl, by first | rfl | exact hno⟩⟩)⟩
    · rw [hba] at h
      simp only [Pure.pure, Except.pure, Except.ok.injEq, Prod.mk.injEq] at h
      obtain ⟨rfl, rfl⟩ := h
      obtain ⟨evs', rfl, h2, -⟩ := emit _ _ rfl
      refine ⟨by simp, ?_⟩
      have h3 := h2 [] ⟨hm.verb, ⟨_, _, by rw [hB]; exact hbt', by simp⟩, hm.rest, .inl ⟨rfl, rfl⟩⟩
      simp only [hB] at h3
      have hk := he.kind
      cases h3 with
      | exit h h4 =>
        have := DocEvents.exit (pend := ini ++ [sp]) h h4
        rw [flush_snoc] at this
        exact this
      | stale h => rw [hk] at h; cases h
      | attributes h => rw [hk] at h; cases h
      | thematicBreak h => rw [hk] at h; cases h
      | enter h => rw [hk] at h; cases h
      | blankline h => rw [hk] at h; cases h
      | leaf hl => exact absurd (hk.symm.trans hl) (by simp)
  | @leaf c st' n' l e inl x es he hc hch hx hbt =>
    rw [List.cons_append] at hB
    rw [step_kind hB, he.kind] at h
    unfold Parser.nodeContainer at h
    obtain ⟨⟨q, c'⟩, h1, h⟩ := bind_ok h
    obtain ⟨ip, hi, rfl, rfl⟩ := leafContainer_idle h1 hm.rest.src_eq
    simp only at h
    have hpend : PendIs p.src ({ p with inlineParser := ip, verbatim := if l.isFed then p.verbatim else true } : Parser).blockAttributes pend := hm.pend
    rw [hpend.take] at h
    simp only [Pure.pure, Except.pure, Except.ok.injEq, Prod.mk.injEq] at h
    obtain ⟨rfl, rfl⟩ := h
    obtain ⟨evs', rfl, -, h2⟩ := emit _ _ rfl
    have hv : (if l.isFed then p.verbatim else true) = !l.isFed := by
      rw [hm.verb]; cases l.isFed <;> rfl
    obtain ⟨cs, rest, h3, h4, rfl⟩ := h2 l inl x es ⟨hv, rfl, ⟨_, _, hch⟩, hx, ⟨_, _, hbt⟩, rfl⟩ hi rfl rfl
    refine ⟨by simp, ?_⟩
    exact .leaf he.kind (chain_span hch).1 hx.kind h3 h4

/-! ## The whole run -/

theorem rest_inline {p p' : Parser} {r : Option (Event × Span)} (h : Inline.Rest src p.inlineParser) (h1 : p.inline = .ok (p', r)) :
    r = none ∧ ∃ ip, p' = { p with inlineParser := ip } ∧ Inline.Rest src ip ∧ (Inline.Idle src p.inlineParser → Inline.Idle src ip) := by
  obtain ⟨ip, h2, h3, h4, h5, h6, h7⟩ := h.next
  unfold Parser.inline at h1
  rw [h2] at h1
  simp only [Bind.bind, Except.bind, Pure.pure, Except.pure, Except.ok.injEq, Prod.mk.injEq] at h1
  obtain ⟨rfl, rfl⟩ := h1
  exact ⟨rfl, ip, rfl, h3, fun hi => ⟨h3, by rw [h4, hi.cpl], by rw [h5, hi.openers], by rw [h6, hi.cow], by rw [h7, hi.attrs]⟩⟩

theorem LeafM.inline {l : Block.Leaf} {inl es : List Block.Event} {x : Block.Event} {p : Parser} (h : LeafM src l inl x es p) (ip : Inline.IP) :
    LeafM src l inl x es { p with inlineParser := ip } := ⟨h.verb, h.blocks, h.chain, h.exit, h.bt, h.pend⟩

theorem nodeContainer_src {p p' : Parser} {n : Block.Node} {enter : Bool} {c : Container} (h : p.nodeContainer n enter = .ok (p', c)) : p'.src = p.src := by
  cases n with
  | container d =>
    obtain ⟨rfl, -⟩ := blockContainer_name false h
    cases d <;> cases enter <;> rfl
  | leaf l =>
    obtain ⟨ip, -, rfl, -⟩ := leafContainer_idle (src := p.inlineParser.input.src) h rfl
    rfl

theorem takeAttrs_src (p : Parser) (sp : Span) : (p.takeAttrs sp).1.src = p.src := by
  unfold Parser.takeAttrs
  split <;> rfl

theorem blockStep_src {p p' : Parser} {s : Step} (h : p.blockStep = .ok (p', s)) : p'.src = p.src := by
  cases hb : p.blocks with
  | nil =>
    unfold Parser.blockStep at h
    rw [hb] at h
    cases h
    rfl
  | cons ev es =>
    rw [step_kind hb] at h
    cases hk : ev.kind with
    | atom a =>
      rw [hk] at h
      cases a with
      | blankline =>
        obtain ⟨_, -, h⟩ := bind_ok h
        cases h
        rfl
      | thematicBreak =>
        simp only [Except.ok.injEq, Prod.mk.injEq] at h
        obtain ⟨rfl, -⟩ := h
        exact takeAttrs_src p _
      | attributes =>
        simp only at h
        unfold Parser.blockAttrs at h
        simp only at h
        obtain ⟨_, -, h⟩ := bind_ok h
        obtain ⟨r, -, h⟩ := bind_ok h
        cases r with
        | error _ => simp at h
        | ok attrs =>
          simp only at h
          split at h <;> (cases h; rfl)
    | enter n =>
      rw [hk] at h
      simp only at h
      obtain ⟨⟨q, c⟩, h1, h⟩ := bind_ok h
      simp only [Pure.pure, Except.pure, Except.ok.injEq, Prod.mk.injEq] at h
      obtain ⟨rfl, -⟩ := h
      exact (takeAttrs_src q _).trans (nodeContainer_src h1)
    | exit n =>
      rw [hk] at h
      simp only at h
      obtain ⟨⟨q, c⟩, h1, h⟩ := bind_ok h
      simp only at h
      have := nodeContainer_src h1
      split at h <;> (cases h; exact this)
    | inline =>
      rw [hk] at h
      simp only at h
      split at h
      · split at h
        · cases h; rfl
        · obtain ⟨_, -, h⟩ := bind_ok h
          cases h; rfl
      · obtain ⟨_, -, h⟩ := bind_ok h
        cases h; rfl
    | stale =>
      rw [hk] at h
      cases h; rfl

theorem rest_reads {p q : Parser} {cs : List (Event × Span)} (hr : Inline.Rest src p.inlineParser) (h : Reads p.view cs q) :
    cs = [] ∧ ∃ p' : Parser, q = p'.view ∧ p'.src = p.src ∧ p'.prePass = p.prePass ∧ (Inline.Idle src p.inlineParser → Inline.Idle src p'.inlineParser) := by
  have hrv : Inline.Rest src p.view.inlineParser := hr
  cases h with
  | none h =>
    obtain ⟨-, ip, rfl, h3, h4⟩ := rest_inline hrv h
    exact ⟨rfl, { p with inlineParser := ip }, rfl, rfl, rfl, h4⟩
  | some h _ =>
    have := (rest_inline hrv h).1
    cases this

/-- What follows the entry of a leaf. -/
theorem Yields.content {p : Parser} {evs : List (Event × Span)} (h : Yields src pre p false evs) (hs : p.src = src) (hp : p.prePass = pre)
    (hi : Inline.Idle src p.inlineParser) {l : Block.Leaf} {inl es : List Block.Event} {x : Block.Event} (hm : LeafM src l inl x es p) :
    ∃ cs rest, Content src pre l (inl.map (·.span)) cs ∧ DocEvents src pre p.tableHeadRow [] es rest ∧
      evs = cs ++ (.end (nodeName (idAt pre) p.tableHeadRow (.leaf l)), x.span) :: rest := by
  cases hf : l.isFed with
  | false =>
    obtain ⟨rest, h1, h2⟩ := h.raw l inl x es hm hf hi
    exact ⟨_, rest, .raw (by rw [isRaw_fed, hf]; rfl), h1, h2⟩
  | true =>
    obtain ⟨cs1, q, cs2, rest, h1, h2, h3, h4⟩ := h.text l inl x es hm hf rfl
    obtain ⟨rfl, p', rfl, h5, h6, h7⟩ := rest_reads hi.rest h1
    obtain ⟨lo, hi', hc⟩ := hm.chain
    refine ⟨cs2, rest, .parsed (by rw [isRaw_fed, hf]; rfl) ?_, h3, h4⟩
    exact idle_lines (h5.trans hs) (h6.trans hp) (h7 hi) (chain_span hc).2 h2

theorem Runs.yields (hsafe : Safe src) {p : Parser} {skip : Bool} {evs : List (Event × Span)} (h : Runs p skip evs) :
    Keeps src pre p skip → p.src = src → p.prePass = pre → Yields src pre p skip evs := by
  induction h with
  | @inl p p' e es h1 h2 ih =>
    intro hk hs hp
    obtain ⟨h3, h4⟩ := view_inline h1
    have hk' := hk.some h1
    have ih := ih hk' (by rw [h4]; exact hs) (by rw [h4]; exact hp)
    refine ⟨?_, ?_, ?_, ?_⟩
    · intro pend hm; have := (rest_inline hm.rest h1).1; cases this
    · intro l inl x es hm hf hi; have := (rest_inline hi.rest h1).1; cases this
    · intro l inl x es hm hf hskip; cases hskip
    · intro l inl x es' hm hf _
      have hm' : LeafM src l inl x es' p' := by rw [h4]; exact hm.inline _
      obtain ⟨cs1, q, cs2, rest, k1, k2, k3, k4⟩ := ih.text l inl x es' hm' hf rfl
      have ht : p'.tableHeadRow = p.tableHeadRow := by rw [h4]
      rw [ht] at k3 k4
      exact ⟨e :: cs1, q, cs2, rest, .some h3 k1, k2, k3, by rw [k4]; rfl⟩
  | @quiet p p' es h1 h2 ih =>
    intro hk hs hp
    obtain ⟨h3, h4⟩ := view_inline h1
    have hk' := hk.none h1
    have ih := ih hk' (by rw [h4]; exact hs) (by rw [h4]; exact hp)
    have ht : p'.tableHeadRow = p.tableHeadRow := by rw [h4]
    have hb : p'.blocks = p.blocks := by rw [h4]
    refine ⟨?_, ?_, ?_, ?_⟩
    · intro pend hm
      obtain ⟨-, ip, rfl, h5, -⟩ := rest_inline hm.rest h1
      exact ih.block pend ⟨hm.verb, hm.bt, h5, hm.pend⟩
    · intro l inl x es' hm hf hi
      obtain ⟨-, ip, rfl, h5, h6⟩ := rest_inline hi.rest h1
      exact ih.raw l inl x es' (hm.inline _) hf (h6 hi)
    · intro l inl x es hm hf hskip; cases hskip
    · intro l inl x es' hm hf _
      have hm' : LeafM src l inl x es' p' := by rw [h4]; exact hm.inline _
      obtain ⟨cs, rest, k1, k2, k3⟩ := ih.lines l inl x es' hm' hf rfl
      rw [ht] at k2 k3
      exact ⟨[], p'.view, cs, rest, .none h3, k1, k2, k3⟩
  | @emit p p' e sp es h1 h2 ih =>
    intro hk hs hp
    have hs' := (blockStep_src h1).trans hs
    have hp' := (blockStep_ok h1).1.trans hp
    have ih := ih (hk.emit h1) hs' hp'
    refine ⟨?_, ?_, ?_, ?_⟩
    · intro pend hm
      refine (block_step h1 hm hs hp hsafe _ (by intro h; cases h) ?_ (by intro h; cases h)).2
      intro e' sp' he
      cases he
      exact ⟨es, rfl, ih.block, fun l inl x es' hl hi _ _ => ih.content hs' hp' hi hl⟩
    · intro l inl x es' hm hf hi
      cases inl with
      | nil =>
        obtain ⟨ip, -, rfl, k2, k3⟩ := exit_step h1 hm hk.1
        cases k2
        refine ⟨es, ih.block [] k3, ?_⟩
        rw [hp]; rfl
      | cons i inl =>
        obtain ⟨rfl, k2, ⟨k3, -⟩ | ⟨k3, k4⟩⟩ := raw_step h1 hm hf hs
        · cases k3
        · cases k3
          obtain ⟨rest, k5, k6⟩ := ih.raw l inl x es' k2 hf hi
          refine ⟨rest, k5, ?_⟩
          rw [k6]
          simp [rawLines, k4]
    · intro l inl x es' hm hf _
      cases inl with
      | nil =>
        obtain ⟨ip, -, rfl, k2, k3⟩ := exit_step h1 hm hk.1
        cases k2
        refine ⟨[], es, .nil, ih.block [] k3, ?_⟩
        rw [hp]; rfl
      | cons i inl =>
        have := (feed_step h1 hm hf).1
        cases this
    · intro l inl x es' hm hf hskip; cases hskip
  | @cont p p' es h1 h2 ih =>
    intro hk hs hp
    have hs' := (blockStep_src h1).trans hs
    have hp' := (blockStep_ok h1).1.trans hp
    have ih := ih (hk.cont h1) hs' hp'
    refine ⟨?_, ?_, ?_, ?_⟩
    · intro pend hm
      exact (block_step h1 hm hs hp hsafe _ (fun _ => ih.block) (by intro _ _ h; cases h) (by intro h; cases h)).2
    · intro l inl x es' hm hf hi
      cases inl with
      | nil =>
        obtain ⟨ip, -, rfl, k2, k3⟩ := exit_step h1 hm hk.1
        cases k2
      | cons i inl =>
        obtain ⟨rfl, k2, ⟨-, k4⟩ | ⟨k3, -⟩⟩ := raw_step h1 hm hf hs
        · obtain ⟨rest, k5, k6⟩ := ih.raw l inl x es' k2 hf hi
          refine ⟨rest, k5, ?_⟩
          rw [k6]
          simp [rawLines, k4]
        · cases k3
    · intro l inl x es' hm hf _
      cases inl with
      | nil =>
        obtain ⟨ip, -, rfl, k2, k3⟩ := exit_step h1 hm hk.1
        cases k2
      | cons i inl =>
        have := (feed_step h1 hm hf).1
        cases this
    · intro l inl x es' hm hf hskip; cases hskip
  | @fed p p' es h1 h2 ih =>
    intro hk hs hp
    have hs' := (blockStep_src h1).trans hs
    have hp' := (blockStep_ok h1).1.trans hp
    have ih := ih (hk.fed h1) hs' hp'
    refine ⟨?_, ?_, ?_, ?_⟩
    · intro pend hm
      have := (block_step h1 hm hs hp hsafe es (by intro h; cases h) (by intro _ _ h; cases h) (by intro h; cases h)).1
      exact absurd rfl this
    · intro l inl x es' hm hf hi
      cases inl with
      | nil =>
        obtain ⟨ip, -, rfl, k2, k3⟩ := exit_step h1 hm hk.1
        cases k2
      | cons i inl =>
        obtain ⟨rfl, k2, ⟨k3, -⟩ | ⟨k3, -⟩⟩ := raw_step h1 hm hf hs <;> cases k3
    · intro l inl x es' hm hf _
      cases inl with
      | nil =>
        obtain ⟨ip, -, rfl, k2, k3⟩ := exit_step h1 hm hk.1
        cases k2
      | cons i inl =>
        obtain ⟨-, ip, k1, k2, k3⟩ := feed_step h1 hm hf
        obtain ⟨cs1, q, cs2, rest, j1, j2, j3, j4⟩ := ih.text l inl x es' k3 hf rfl
        have hv : p'.view = { p.view with inlineParser := ip } := by rw [k2]; rfl
        have ht : p'.tableHeadRow = p.tableHeadRow := by rw [k2]
        rw [ht] at j3 j4
        rw [hv] at j1
        refine ⟨cs1 ++ cs2, rest, ?_, j3, by rw [j4, List.append_assoc]⟩
        refine .cons ?_ j1 j2
        rw [List.isEmpty_map]
        exact k1
    · intro l inl x es' hm hf hskip; cases hskip
  | @stop p p' h1 h2 =>
    intro hk hs hp
    refine ⟨?_, ?_, ?_, ?_⟩
    · intro pend hm
      exact (block_step h1 hm hs hp hsafe _ (by intro h; cases h) (by intro _ _ h; cases h) (fun _ _ => rfl)).2
    · intro l inl x es' hm hf hi
      cases inl with
      | nil =>
        obtain ⟨ip, -, rfl, k2, k3⟩ := exit_step h1 hm hk.1
        cases k2
      | cons i inl =>
        obtain ⟨rfl, k2, ⟨k3, -⟩ | ⟨k3, -⟩⟩ := raw_step h1 hm hf hs <;> cases k3
    · intro l inl x es' hm hf _
      cases inl with
      | nil =>
        obtain ⟨ip, -, rfl, k2, k3⟩ := exit_step h1 hm hk.1
        cases k2
      | cons i inl =>
        have := (feed_step h1 hm hf).1
        cases this
    · intro l inl x es' hm hf hskip; cases hskip
  | @last p p' y es h1 h2 =>
    intro hk hs hp
    refine ⟨?_, ?_, ?_, ?_⟩
    · intro pend hm
      exact (block_step h1 hm hs hp hsafe _ (by intro h; cases h) (by intro _ _ h; cases h) (fun _ h => by rw [h2] at h; cases h)).2
    · intro l inl x es' hm hf hi
      cases inl with
      | nil =>
        obtain ⟨ip, -, rfl, k2, k3⟩ := exit_step h1 hm hk.1
        cases k2
      | cons i inl =>
        obtain ⟨rfl, k2, ⟨k3, -⟩ | ⟨k3, -⟩⟩ := raw_step h1 hm hf hs <;> cases k3
    · intro l inl x es' hm hf _
      cases inl with
      | nil =>
        obtain ⟨ip, -, rfl, k2, k3⟩ := exit_step h1 hm hk.1
        cases k2
      | cons i inl =>
        have := (feed_step h1 hm hf).1
        cases this
    · intro l inl x es' hm hf hskip; cases hskip

/-- The events of a document are those of its block events. -/
theorem offsetEvents_doc (hu : Utf8 src) {evs : List (Event × Span)} (h : offsetEvents src = .ok evs) :
    ∃ p, Parser.new src = .ok p ∧ Block.parse src = .ok p.blocks ∧ DocEvents src p.prePass false [] p.blocks evs := by
  have hs := hu.safe
  have hb := hu.bd
  unfold offsetEvents at h
  obtain ⟨p0, h1, h⟩ := bind_ok h
  refine ⟨p0, h1, ?_⟩
  unfold Parser.new at h1
  obtain ⟨blocks, hbl, h1⟩ := bind_ok h1
  obtain ⟨es, rfl, hbt⟩ := ((Block.parse_shape hu).of_ok hbl).bt
  obtain ⟨⟨pre, ip⟩, hpre, hd, hrest⟩ := (prePass_sat hs hb hbt (e := ⟨.enter (.container .document), ⟨0, 0⟩⟩) rfl).exists_ok
  simp only [Bind.bind, Except.bind, hpre, Pure.pure, Except.pure, Except.ok.injEq] at h1
  obtain ⟨ip2, hn, hrest2, -⟩ := hrest.next
  have hnext : p0.next = .ok ({ src := src, blocks := es, prePass := pre, inlineParser := ip2 }, some (.start .document [], ⟨0, 0⟩)) := by
    subst h1
    unfold Parser.next Parser.nextSpan Parser.inlineUnless Parser.inline
    simp only [hn, Bool.false_eq_true, if_false, Bind.bind, Except.bind, Pure.pure, Except.pure]
    rfl
  have hinv : Inv src pre [.document] false 0 (es.length * unit src) { src := src, blocks := es, prePass := pre, inlineParser := ip2 } := by
    refine .base (.block (st := [.document]) (n := 0) ⟨⟨rfl, rfl, hd, hs, hb⟩, rfl, .doc, ?_, hrest2, hbt, ?_⟩ ?_)
    · intro h st' heq; cases heq
    · unfold Pend; exact Nat.le_refl _
    · exact Nat.le_refl _
  have hp : p0.blocks = ⟨.enter (.container .document), ⟨0, 0⟩⟩ :: es ∧ p0.prePass = pre := by subst h1; exact ⟨rfl, rfl⟩
  rw [hp.1, hp.2]
  refine ⟨hbl, ?_⟩
  cases hf : p0.collectFuel with
  | zero => rw [hf] at h; simp [Parser.collect] at h
  | succ f =>
    rw [hf] at h
    unfold Parser.collect at h
    simp only [hnext, Bind.bind, Except.bind] at h
    obtain ⟨evs', h3, h⟩ := bind_ok h
    simp only [Pure.pure, Except.pure, Except.ok.injEq] at h
    subst h
    have hy := (collect_runs f h3).yields (pre := pre) hs (.inl ⟨_, _, _, _, hinv⟩) rfl rfl
    exact .enter (e := ⟨.enter (.container .document), ⟨0, 0⟩⟩) (c := .document) rfl (hy.block [] ⟨rfl, ⟨_, _, hbt, by simp⟩, hrest2, .inl ⟨rfl, rfl⟩⟩)

end Jotdown
