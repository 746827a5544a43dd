import Verif.Proofs.BTail
import Verif.Proofs.InlIter
import Verif.Proofs.Ids
/-! # The first pass does not panic -/
namespace Jotdown
open Jotdown

section
open Jotdown.Block

/-! ## Attributes -/

theorem attrOk_keys {src : Bytes} {sp : Span} (hs : Safe src) (hsp : SpanOk src sp) (h : AttrOk src sp) :
    ∃ a, Attr.KeysOk a ∧ ∀ attrs, Attr.parseAttributes attrs (sliceOf src sp) = .ok (.ok (attrs ++ a)) := by
  obtain ⟨a, ha⟩ := h
  refine ⟨a, ?_, ha⟩
  have h0 := ha []
  have hbs := sliceOf_bd_safe hsp hs
  rw [List.nil_append, Attr.parseAttributes_ok_iff hbs.1 hbs.2] at h0
  obtain ⟨ct, hf⟩ := h0
  have : Attr.PInv ⟨[], .start⟩ [] := ⟨by simp [Attr.needLast], by intro e he; simp at he, by simp⟩
  exact (this.run hf).keys

theorem KeysOk.append {a b : Attr.Attributes} (ha : Attr.KeysOk a) (hb : Attr.KeysOk b) : Attr.KeysOk (a ++ b) := by
  intro e he k hk
  rcases List.mem_append.1 he with he | he
  · exact ha e he k hk
  · exact hb e he k hk

theorem KeysOk.nil : Attr.KeysOk [] := by intro e he; simp at he

theorem collectAttrs_ok {src : Bytes} (hs : Safe src) {sps : List Span} (h : ∀ sp ∈ sps, SpanOk src sp ∧ AttrOk src sp) :
    Sat Never (collectAttrs src sps) Attr.KeysOk := by
  induction sps with
  | nil => exact Sat.ok KeysOk.nil
  | cons sp sps ih =>
    obtain ⟨h1, h2⟩ := h sp (by simp)
    obtain ⟨a, ha, hp⟩ := attrOk_keys hs h1 h2
    unfold collectAttrs
    rw [h1.slice]
    simp only [Bind.bind, Except.bind]
    unfold Attr.tryFrom
    rw [hp]
    simp only [List.nil_append]
    refine (ih (fun sp hsp => h sp (by simp [hsp]))).bind ?_
    intro b hb
    exact Sat.pure (KeysOk.append ha hb)

theorem collectUrl_sat {src : Bytes} {sps : List Span} (h : ∀ sp ∈ sps, SpanOk src sp) :
    Sat Never (collectUrl src sps) (fun _ => True) := by
  induction sps with
  | nil => exact Sat.ok trivial
  | cons sp sps ih =>
    unfold collectUrl
    rw [(h sp (by simp)).slice]
    simp only [Bind.bind, Except.bind]
    refine (ih (fun sp hsp => h sp (by simp [hsp]))).bind ?_
    intro b hb
    exact Sat.pure trivial
end

/-! ## Headings -/

open Jotdown.Inline in
theorem After.pos {c : Inline.Cx} {st : List Inline.Open} {own : Attr.Attributes} {p : Inline.IP} (h : Inline.After c st own p) : 1 ≤ c.K := by
  obtain ⟨e, es, h1, -⟩ := h.ex
  have := h.base.pot
  rw [h1, weight_cons] at this
  have := wt_pos e
  omega

/-- All lines so far were read. -/
structure Drained (c : Inline.Cx) (p : Inline.IP) : Prop where
  ex : ∃ c' : Inline.Cx, c'.src = c.src ∧ c'.H = c.H ∧ c'.cpl = c.cpl ∧ c'.more = c.more ∧
    (Inline.Starved c' p ∨ Inline.Pending c' p ∨ Inline.Fin c' p)

theorem Drained.congr {c c' : Inline.Cx} {p : Inline.IP} (h : Drained c' p) (h1 : c'.src = c.src) (h2 : c'.H = c.H) (h3 : c'.cpl = c.cpl) (h4 : c'.more = c.more) :
    Drained c p := by
  obtain ⟨d, g1, g2, g3, g4, g5⟩ := h.ex
  exact ⟨d, by rw [g1, h1], by rw [g2, h2], by rw [g3, h3], by rw [g4, h4], g5⟩

theorem headingEvent_ok {src : Bytes} {e : Inline.Event} (h : Block.SpanOk src e.span) (ht : HeadingText) :
    Sat Never (ht.event src e) (fun _ => True) := by
  unfold HeadingText.event
  split
  · rw [h.slice]; exact Sat.pure trivial
  · exact Sat.ok trivial
  · exact Sat.ok trivial

theorem drain_ok : ∀ (fuel : Nat) {c : Inline.Cx} (_ : c.Ok) {st : List Inline.Open} {p : Inline.IP} {h : HeadingText},
    (Inline.Ready c st p ∨ ∃ own, Inline.After c st own p) → c.K < fuel → Sat Never (drainHeading c.src fuel p h) (fun r => Drained c r.1) := by
  intro fuel
  induction fuel with
  | zero => intro c _ st p h _ hk; omega
  | succ fuel ih =>
    intro c hc st p h hr hk
    unfold drainHeading
    have emit : ∀ {c' : Inline.Cx} {st' : List Inline.Open} {p' : Inline.IP} {h' : HeadingText}, c'.src = c.src → c'.H = c.H → c'.cpl = c.cpl → c'.more = c.more →
        (Inline.Ready c' st' p' ∨ ∃ own, Inline.After c' st' own p') → c'.K < fuel → Sat Never (drainHeading c.src fuel p' h') (fun r => Drained c r.1) := by
      intro c' st' p' h' e1 e2 e3 e4 e5 e6
      have := ih (c := c') ⟨by rw [e1]; exact hc.safe, by rw [e1]; exact hc.bd, by rw [e1, e2]; exact hc.le⟩ (h := h') e5 e6
      rw [e1] at this
      exact this.mono (fun r hr => hr.congr e1 e2 e3 e4)
    rcases hr with hr | hr
    · refine (Inline.nextEvent_ok hc hr).bind ?_
      intro r hn
      have h2 := hn.2
      split
      · rename_i he
        rw [he] at h2
        exact Sat.pure ⟨c, rfl, rfl, rfl, rfl, h2.2⟩
      · rename_i e he
        rw [he] at h2
        obtain ⟨hK, h2⟩ := h2
        refine (headingEvent_ok h2.span h).bind ?_
        intro h' _
        have hnx := h2.next
        split at hnx
        · exact emit (c' := c.past e) rfl rfl rfl rfl (.inl (.emit hnx.2)) (by simp only [Inline.Cx.past]; omega)
        · obtain ⟨_, k, st', _, _, _, hnx⟩ := hnx
          exact emit (c' := c.past e) rfl rfl rfl rfl (.inl (.emit hnx)) (by simp only [Inline.Cx.past]; omega)
        · exact emit (c' := c.past e) rfl rfl rfl rfl (.inl (.emit hnx.2.2)) (by simp only [Inline.Cx.past]; omega)
        · exact emit (c' := c.past e) rfl rfl rfl rfl (.inl (.emit hnx.2)) (by simp only [Inline.Cx.past]; omega)
        · obtain ⟨own, _, hnx⟩ := hnx
          exact emit (c' := c.dec) rfl rfl rfl rfl (.inr ⟨own, hnx⟩) (by simp only [Inline.Cx.dec]; omega)
        · exact hnx.elim
    · obtain ⟨own, hr⟩ := hr
      have hK := After.pos hr
      refine (Inline.nextEvent_after hc hr).bind ?_
      intro r hn
      obtain ⟨e, he, h1, h2, h3, h4⟩ := hn.ev
      rw [he]
      simp only
      refine (headingEvent_ok h1 h).bind ?_
      intro h' _
      rcases h4 with ⟨_, _, h4⟩ | ⟨x, _, h4⟩
      · exact emit (c' := c.past e) rfl rfl rfl rfl (.inl (.emit h4)) (by simp only [Inline.Cx.past]; omega)
      · exact emit (c' := c.past e) rfl rfl rfl rfl (.inl (.emit h4)) (by simp only [Inline.Cx.past]; omega)

theorem drain_ready {c : Inline.Cx} (hc : c.Ok) {st : List Inline.Open} {p : Inline.IP} {h : HeadingText} (hr : Inline.Ready c st p) :
    Sat Never (drainHeading c.src p.eventFuel p h) (fun r => Drained c r.1) := by
  obtain ⟨h1, h2⟩ := hr.rank
  have := Inline.rank_fuel h2
  have h3 := drain_ok p.eventFuel (hc.bound (min c.K (p.rank c))) (h := h) (.inl h1) (by simp only [Inline.Cx.bound]; omega)
  exact h3.mono (fun r hr => hr.congr rfl rfl rfl rfl)

theorem Fin.cpl {c : Inline.Cx} {p : Inline.IP} (h : Inline.Fin c p) : c.cpl = true := by
  rw [← h.emit.base.inp.cpl]
  exact (Inline.last_eq.1 h.last).1

theorem Drained.wait {c : Inline.Cx} {p : Inline.IP} (h : Drained c p) (hc : c.cpl = false) :
    ∃ c' : Inline.Cx, c'.src = c.src ∧ c'.H = c.H ∧ c'.cpl = c.cpl ∧ c'.more = c.more ∧ (Inline.Starved c' p ∨ Inline.Pending c' p) := by
  obtain ⟨d, g1, g2, g3, g4, g5⟩ := h.ex
  refine ⟨d, g1, g2, g3, g4, ?_⟩
  rcases g5 with h | h | h
  · exact .inl h
  · exact .inr h
  · have := Fin.cpl h; rw [g3, hc] at this; cases this

theorem Drained.rest {c : Inline.Cx} {p : Inline.IP} (h : Drained c p) (hc : c.cpl = true) : Inline.Rest c.src p := by
  obtain ⟨d, g1, g2, g3, g4, g5⟩ := h.ex
  rcases g5 with h | h | h
  · have := h.cpl; rw [g3, hc] at this; cases this
  · have := h.cpl; rw [g3, hc] at this; cases this
  · rw [← g1]; exact h.rest

/-- A further line. -/
theorem wait_feed {c : Inline.Cx} (hc : c.Ok) {p : Inline.IP} (h : Inline.Starved c p ∨ Inline.Pending c p) {l : Span} (hl : Block.SpanOk c.src l) (hH : c.H ≤ l.start)
    {last more : Bool} (hne : c.H < l.stop → c.more = true) (hm : more = true → c.more = true ∧ Block.NlStop c.src l.stop) :
    Sat Never (p.feedLine l last) (Inline.Ready (c.line l last more) []) := by
  rcases h with h | h
  · exact (h.feed hc hl hH hne (fun hmo => (hm hmo).2)).mono (fun p' hp => .live hp)
  · exact (h.feed hl hH hne hm).mono (fun p' hp => .fed hp)

theorem line_ok {c : Inline.Cx} (hc : c.Ok) {l : Span} (hl : Block.SpanOk c.src l) (last more : Bool) : (c.line l last more).Ok :=
  ⟨hc.safe, hc.bd, hl.len⟩

theorem headingLines_wait {src : Bytes} {hi lo : Nat} {inl : List Block.Event} (h : Block.InlChain src true lo inl hi) : ∀ {c : Inline.Cx} (_ : c.Ok) {p : Inline.IP} {ht : HeadingText},
    c.src = src → c.H = lo → c.cpl = false → c.more = !inl.isEmpty → Block.SpanOk src ⟨lo, lo⟩ → (Inline.Starved c p ∨ Inline.Pending c p) →
    Sat Never (headingLines src p ht lo (inl.map (·.span))) (fun r => Inline.Rest src r.1) := by
  induction h with
  | @nil lo hi h =>
    intro c hc p ht hsrc hH hcpl hmore hsp hw
    subst hsrc
    unfold headingLines
    simp only [List.map_nil]
    refine (wait_feed hc hw (l := ⟨lo, lo⟩) (last := true) (more := false) hsp (by simp only; omega) (fun h => by simp only at h; omega) (fun h => by cases h)).bind ?_
    intro p' hp'
    exact (drain_ready (line_ok hc hsp _ _) hp').mono (fun r hr => hr.rest rfl)
  | @cons lo hi e es hk hsp hlo hnl _ ih =>
    intro c hc p ht hsrc hH hcpl hmore _ hw
    subst hsrc
    simp only [List.map_cons]
    unfold headingLines
    refine (wait_feed hc hw (l := e.span) (last := false) (more := !es.isEmpty) hsp (by omega) (fun _ => by rw [hmore]; rfl) ?_).bind ?_
    · intro hm
      refine ⟨by rw [hmore]; rfl, ?_⟩
      rcases hnl rfl with h | h
      · subst h; simp at hm
      · exact h
    · intro p' hp'
      refine (drain_ready (line_ok hc hsp _ _) hp').bind ?_
      intro r hr
      obtain ⟨d, g1, g2, g3, g4, g5⟩ := hr.wait rfl
      refine ih (c := d) ?_ g1 g2 g3 g4 hsp.at_stop g5
      have := line_ok hc hsp false (!es.isEmpty)
      exact ⟨by rw [g1]; exact this.safe, by rw [g1]; exact this.bd, by rw [g1, g2]; exact this.le⟩

theorem headingLines_ok {src : Bytes} (hs : Safe src) (hb : Bd src) {hi lo : Nat} {inl : List Block.Event} (h : Block.InlChain src true lo inl hi) {p : Inline.IP} (hp : Inline.Idle src p) {ht : HeadingText} :
    Sat Never (headingLines src p ht 0 (inl.map (·.span))) (fun r => Inline.Rest src r.1) := by
  cases h with
  | nil h =>
    unfold headingLines
    simp only [List.map_nil]
    have hsp : Block.SpanOk src ⟨0, 0⟩ := .empty (Nat.zero_le _) (by simpa using hb)
    have hc : Inline.Cx.Ok ⟨src, 0, 0, 3 * src.length, true, false, 0, 0⟩ := ⟨hs, hb, Nat.zero_le _⟩
    refine (hp.feed (c := ⟨src, 0, 0, 3 * src.length, true, false, 0, 0⟩) hs hsp rfl (Nat.le_refl _) (fun h => by cases h) (Nat.le_refl _)).bind ?_
    intro p' hp'
    exact (drain_ready hc (.live hp')).mono (fun r hr => hr.rest rfl)
  | @cons _ _ e es hk hsp hlo hnl h =>
    simp only [List.map_cons]
    unfold headingLines
    have hc : Inline.Cx.Ok ⟨src, e.span.stop, 0, 3 * src.length, false, !es.isEmpty, 0, 0⟩ := ⟨hs, hb, hsp.len⟩
    refine (hp.feed (c := ⟨src, e.span.stop, 0, 3 * src.length, false, !es.isEmpty, 0, 0⟩) hs hsp rfl (Nat.zero_le _) ?_ (Nat.le_refl _)).bind ?_
    · intro hm
      rcases hnl rfl with h | h
      · subst h; simp at hm
      · exact h
    · intro p' hp'
      refine (drain_ready hc (.live hp')).bind ?_
      intro r hr
      obtain ⟨d, g1, g2, g3, g4, g5⟩ := hr.wait rfl
      exact headingLines_wait h (c := d) ⟨by rw [g1]; exact hs, by rw [g1]; exact hb, by rw [g1, g2]; exact hsp.len⟩ g1 g2 g3 g4 hsp.at_stop g5

/-! ## The loop -/

/-- The definitions have attributes with proper keys. -/
def DefsOk (ds : List (Bytes × (Bytes × Attr.Attributes))) : Prop := ∀ d ∈ ds, Attr.KeysOk d.2.2

structure PreInv (src : Bytes) (s : PreState) : Prop where
  defs : DefsOk s.linkDefinitions
  attrs : ∀ sp ∈ s.attrPrev, Block.SpanOk src sp ∧ Block.AttrOk src sp
  rest : Inline.Rest src s.inlineParser

theorem PreInv.clear {src : Bytes} {s : PreState} (h : PreInv src s) : PreInv src { s with attrPrev := [] } :=
  ⟨h.defs, by simp, h.rest⟩

theorem takeInlines_chain {src : Bytes} {fed : Bool} {lo hi : Nat} {inl : List Block.Event} (h : Block.InlChain src fed lo inl hi) {x : Block.Event} (hx : x.kind ≠ .inline)
    (K : List Block.Event) : takeInlines (inl ++ x :: K) = (inl.map (·.span), K) := by
  induction h with
  | nil => unfold takeInlines; simp only [List.nil_append]; rw [if_neg hx]; rfl
  | cons k _ _ _ _ ih =>
    simp only [List.cons_append, List.map_cons]
    unfold takeInlines
    rw [if_pos k, ih]

theorem chain_spans {src : Bytes} {fed : Bool} {lo hi : Nat} {inl : List Block.Event} (h : Block.InlChain src fed lo inl hi) : ∀ sp ∈ inl.map (·.span), Block.SpanOk src sp := by
  induction h with
  | nil => simp
  | cons _ s _ _ _ ih =>
    intro sp hsp
    simp only [List.map_cons, List.mem_cons] at hsp
    rcases hsp with rfl | hsp
    · exact s
    · exact ih sp hsp

theorem heading_ok {src : Bytes} (hs : Safe src) (hb : Bd src) {s : PreState} (h : PreInv src s) {start lo hi : Nat} {inl : List Block.Event}
    (hi : Block.InlChain src true lo inl hi) : Sat Never (s.heading src start (inl.map (·.span))) (PreInv src) := by
  unfold PreState.heading
  refine (collectAttrs_ok hs h.attrs).bind ?_
  intro attrs _
  refine h.rest.reset.bind ?_
  intro ip hip
  refine (headingLines_ok hs hb hi hip).bind ?_
  intro ⟨p', h'⟩ hr
  obtain ⟨id, hid, -⟩ := uniqueId_ok s.usedIds h'.idAuto
  simp only
  rw [hid]
  exact Sat.pure ⟨h.defs, h.attrs, hr⟩

theorem linkDefinition_ok {src : Bytes} (hs : Safe src) {s : PreState} (h : PreInv src s) {label : Bytes} {sps : List Span}
    (hi : ∀ sp ∈ sps, Block.SpanOk src sp) : Sat Never (s.linkDefinition src label sps) (PreInv src) := by
  unfold PreState.linkDefinition
  refine (collectAttrs_ok hs h.attrs).bind ?_
  intro attrs ha
  refine (collectUrl_sat hi).bind ?_
  intro url _
  refine Sat.pure ⟨?_, h.attrs, h.rest⟩
  intro d hd
  rcases List.mem_cons.1 hd with rfl | hd
  · exact ha
  · exact h.defs d hd

theorem loop_inl {src : Bytes} {fed : Bool} {lo hi : Nat} {inl : List Block.Event} (h : Block.InlChain src fed lo inl hi) (K : List Block.Event) (s : PreState) :
    ∃ s', s.loop src (inl ++ K) = s'.loop src K ∧ (PreInv src s → PreInv src s') := by
  induction h generalizing s with
  | nil => exact ⟨s, rfl, id⟩
  | cons k _ _ _ _ ih =>
    obtain ⟨s', h1, h2⟩ := ih { s with attrPrev := [] }
    refine ⟨s', ?_, fun h => h2 h.clear⟩
    rw [List.cons_append, PreState.loop]
    simp only [k]
    exact h1

theorem loop_ok {src : Bytes} (hs : Safe src) (hb : Bd src) {st : List Block.Container} {n : Nat} {es : List Block.Event} (h : Block.BT src st n es) :
    ∀ {s : PreState}, PreInv src s → Sat Never (s.loop src es) (PreInv src) := by
  induction h with
  | done => intro s hi; unfold PreState.loop; exact Sat.ok hi
  | @atom c st n e a es hk hsp ha _ _ _ ih =>
    intro s hi
    rw [PreState.loop]
    simp only [hk]
    cases a
    case attributes =>
      refine ih ⟨hi.defs, ?_, hi.rest⟩
      intro sp hm
      simp only [List.mem_append, List.mem_singleton] at hm
      rcases hm with hm | rfl
      · exact hi.attrs sp hm
      · exact ⟨hsp, ha⟩
    all_goals exact ih hi.clear
  | stale hk _ _ ih =>
    intro s hi
    rw [PreState.loop]
    simp only [hk]
    exact ih hi.clear
  | enter he _ _ _ ih =>
    intro s hi
    rw [PreState.loop]
    simp only [he.kind]
    exact ih hi
  | @exit c st n e es he _ _ ih =>
    intro s hi
    rw [PreState.loop]
    simp only [he.kind]
    cases c
    case «section» => exact ih hi
    all_goals exact ih hi.clear
  | @leaf c st n l e inl x es he hm hc hx _ ih =>
    intro s hi
    have hxk : x.kind ≠ .inline := by rw [hx.kind]; simp
    have ht := takeInlines_chain hc hxk es
    rw [List.cons_append, PreState.loop]
    simp only [he.kind]
    have other : Sat Never (s.loop src (inl ++ x :: es)) (PreInv src) := by
      obtain ⟨s', h1, h2⟩ := loop_inl hc (x :: es) s
      rw [h1, PreState.loop]
      simp only [hx.kind]
      exact ih (h2 hi).clear
    cases l
    case heading =>
      simp only [ht]
      exact (heading_ok hs hb hi hc).bind (fun s' hs' => ih hs')
    case linkDefinition =>
      simp only [ht]
      exact (linkDefinition_ok hs hi (chain_spans hc)).bind (fun s' hs' => ih hs')
    all_goals exact other

/-- The first pass. -/
theorem prePass_sat {src : Bytes} (hs : Safe src) (hb : Bd src) {n : Nat} {es : List Block.Event} (h : Block.BT src [.document] n es) {e : Block.Event} (he : e.kind = .enter (.container .document)) :
    Sat Never (PrePass.new src (e :: es) (Inline.IP.new src)) (fun r => DefsOk r.1.linkDefinitions ∧ Inline.Rest src r.2) := by
  unfold PrePass.new
  refine Sat.bind (P := PreInv src) ?_ ?_
  · rw [PreState.loop]
    simp only [he]
    exact loop_ok hs hb h ⟨by intro d hd; simp at hd, by simp, (Inline.Idle.new src).rest⟩
  · intro s hs
    exact Sat.pure ⟨hs.defs, hs.rest⟩

end Jotdown
