import Verif.Proofs.PreOk
/-! # The texts of headings come from their lines -/
namespace Jotdown
open Jotdown

variable {src : Bytes}

theorem sat_with {α : Type} {A : Panic → Prop} {x : R α} {P Q : α → Prop} (h : Sat A x P) (hq : ∀ a, x = .ok a → P a → Q a) : Sat A x Q := by
  cases x with
  | ok a => exact hq a rfl h
  | error e => exact h

/-- The lines are read in the same way from every inline parser that waits for the first. -/
theorem idle_drains {p : Inline.IP} (hi : Inline.Idle src p) {ls : List Span} {es : List Inline.Event}
    (hl : ∀ l ∈ ls, Block.SpanOk src l) (h : DrainsLines p ls es) : DrainsLines (Inline.IP.new src) ls es := by
  cases h with
  | nil => exact .nil
  | @cons _ q p' l ls es es' h1 h2 h3 =>
    refine .cons (q := q) ?_ h2 h3
    have h4 := Inline.feedLine_empty hi.rest.src_eq hi.cpl hi.rest.rem hi.rest.ahead (hl l (by simp)) ls.isEmpty
    unfold Inline.IP.feedLine at h1
    rw [h4] at h1
    simp only [Bind.bind, Except.bind, Pure.pure, Except.pure, Except.ok.injEq] at h1
    have hn := Inline.Idle.new src
    have h6 := Inline.feedLine_empty hn.rest.src_eq hn.cpl hn.rest.rem hn.rest.ahead (hl l (by simp)) ls.isEmpty
    unfold Inline.IP.feedLine
    rw [h6]
    simp only [Bind.bind, Except.bind, Pure.pure, Except.pure, Except.ok.injEq]
    rw [← h1]
    have h7 := hi.rest.events; have h8 := hi.rest.attr; have h9 := hi.rest.verb; have h10 := hi.openers; have h11 := hi.cow; have h12 := hi.attrs
    have h13 := hi.rest.ahead; have h14 := hi.rest.src_eq
    obtain ⟨⟨isrc, ilex, icpl, isl, iah, isp⟩, qo, qe, qv, qa, qc, qs⟩ := p
    simp only at h7 h8 h9 h10 h11 h12 h13 h14
    subst h7 h8 h9 h10 h11 h12 h13 h14
    rfl

/-- The headings so far have the given lines. -/
structure Tied (src : Bytes) (s : PreState) (lss : List (List Span)) : Prop where
  inv : PreInv src s
  used : s.usedIds = (s.headings.map (·.idAuto)).reverse
  ids : AutoIds src [] s.headings lss

theorem Tied.clear {s : PreState} {lss : List (List Span)} (h : Tied src s lss) : Tied src { s with attrPrev := [] } lss :=
  ⟨h.inv.clear, h.used, h.ids⟩

theorem lines_emptyLine {fed : Bool} {lo hi : Nat} {inl : List Block.Event} (hb : Bd src) (h : Block.InlChain src fed lo inl hi) :
    ∀ l ∈ inl.map (·.span) ++ [emptyLine (inl.map (·.span))], Block.SpanOk src l := by
  have hs := chain_spans h
  intro l hl
  rcases List.mem_append.1 hl with hl | hl
  · exact hs l hl
  · simp only [List.mem_singleton] at hl
    subst hl
    unfold emptyLine
    cases hc : (inl.map (·.span)).getLast? with
    | none => exact .empty (Nat.zero_le _) (by simpa using hb)
    | some x => exact (hs x (List.mem_of_getLast? hc)).at_stop

theorem heading_tie (hs : Safe src) (hb : Bd src) {s : PreState} {lss : List (List Span)} (h : Tied src s lss) {start lo hi : Nat} {inl : List Block.Event}
    (hi : Block.InlChain src true lo inl hi) : Sat Never (s.heading src start (inl.map (·.span))) (fun s' => Tied src s' (lss ++ [inl.map (·.span)])) := by
  have hinv := heading_ok (start := start) hs hb h.inv hi
  refine sat_with hinv ?_
  intro s' h1 hp
  unfold PreState.heading at h1
  obtain ⟨attrs, -, h1⟩ := bind_ok h1
  obtain ⟨ip, h2, h1⟩ := bind_ok h1
  obtain ⟨⟨ip', ht⟩, h3, h1⟩ := bind_ok h1
  obtain ⟨id, h4, h1⟩ := bind_ok h1
  simp only [Pure.pure, Except.pure, Except.ok.injEq] at h1
  subst h1
  have hidle := h.inv.rest.reset.of_ok h2
  obtain ⟨es, g1, g2⟩ := headingLines_ht (content := []) _ ⟨rfl, fun rest => by simp⟩ h3
  have hd := idle_drains hidle (lines_emptyLine hb hi) g1
  obtain ⟨id', h5, h6⟩ := uniqueId_ok s.usedIds ht.idAuto
  rw [h4] at h5
  cases h5
  have hsl := g2.2 []
  simp [slug] at hsl
  refine ⟨hp, by simp [h.used], h.ids.append (content := es.flatMap (eventContent src)) ⟨es, hd, rfl⟩ (by simpa using g2.1) ?_⟩
  rw [hsl, h.used] at h6
  simpa using h6

theorem headingSpans_chain {fed : Bool} {lo hi : Nat} {inl : List Block.Event} (h : Block.InlChain src fed lo inl hi) (K : List Block.Event) :
    headingSpans (inl ++ K) = headingSpans K := by
  induction h with
  | nil => rfl
  | cons k _ _ _ _ ih =>
    rw [List.cons_append, headingSpans]
    simp only [k, ih]

theorem takeWhile_chain {fed : Bool} {lo hi : Nat} {inl : List Block.Event} (h : Block.InlChain src fed lo inl hi) {x : Block.Event} (hx : x.kind ≠ .inline) (K : List Block.Event) :
    (inl ++ x :: K).takeWhile (fun e => e.kind == .inline) = inl := by
  induction h with
  | nil => simp [hx]
  | cons k _ _ _ _ ih => simp [k, ih]

theorem loop_tieInl {fed : Bool} {lo hi : Nat} {inl : List Block.Event} (h : Block.InlChain src fed lo inl hi) (K : List Block.Event) (s : PreState) :
    ∃ s', s.loop src (inl ++ K) = s'.loop src K ∧ ∀ lss, Tied src s lss → Tied src s' lss := by
  induction h generalizing s with
  | nil => exact ⟨s, rfl, fun _ h => h⟩
  | cons k _ _ _ _ ih =>
    obtain ⟨s', h1, h2⟩ := ih { s with attrPrev := [] }
    refine ⟨s', ?_, fun lss h => h2 lss h.clear⟩
    rw [List.cons_append, PreState.loop]
    simp only [k]
    exact h1

theorem linkDefinition_tie (hs : Safe src) {s : PreState} {lss : List (List Span)} (h : Tied src s lss) {label : Bytes} {sps : List Span}
    (hi : ∀ sp ∈ sps, Block.SpanOk src sp) : Sat Never (s.linkDefinition src label sps) (fun s' => Tied src s' lss) := by
  refine sat_with (linkDefinition_ok (label := label) hs h.inv hi) ?_
  intro s' h1 hp
  unfold PreState.linkDefinition at h1
  obtain ⟨attrs, -, h1⟩ := bind_ok h1
  obtain ⟨url, -, h1⟩ := bind_ok h1
  simp only [Pure.pure, Except.pure, Except.ok.injEq] at h1
  subst h1
  exact ⟨hp, h.used, h.ids⟩

theorem loop_tie (hs : Safe src) (hb : Bd src) {st : List Block.Container} {n : Nat} {es : List Block.Event} (h : Block.BT src st n es) :
    ∀ {s : PreState} {lss : List (List Span)}, Tied src s lss → Sat Never (s.loop src es) (fun s' => Tied src s' (lss ++ headingSpans es)) := by
  induction h with
  | done => intro s lss hi; unfold PreState.loop; exact Sat.ok (by simpa [headingSpans] using hi)
  | @atom c st n e a es hk hsp ha _ _ _ ih =>
    intro s lss hi
    rw [PreState.loop, headingSpans]
    simp only [hk]
    cases a
    case attributes =>
      refine ih ⟨⟨hi.inv.defs, ?_, hi.inv.rest⟩, hi.used, hi.ids⟩
      intro sp hm
      simp only [List.mem_append, List.mem_singleton] at hm
      rcases hm with hm | rfl
      · exact hi.inv.attrs sp hm
      · exact ⟨hsp, ha⟩
    all_goals exact ih hi.clear
  | stale hk _ _ ih =>
    intro s lss hi
    rw [PreState.loop, headingSpans]
    simp only [hk]
    exact ih hi.clear
  | enter he _ _ _ ih =>
    intro s lss hi
    rw [PreState.loop, headingSpans]
    simp only [he.kind]
    exact ih hi
  | @exit c st n e es he _ _ ih =>
    intro s lss hi
    rw [PreState.loop, headingSpans]
    simp only [he.kind]
    cases c
    case «section» => exact ih hi
    all_goals exact ih hi.clear
  | @leaf c st n l e inl x es he hm hc hx _ ih =>
    intro s lss hi
    have hxk : x.kind ≠ .inline := by rw [hx.kind]; simp
    have ht := takeInlines_chain hc hxk es
    have hx2 : headingSpans (x :: es) = headingSpans es := by rw [headingSpans]; simp only [hx.kind]
    rw [List.cons_append, PreState.loop, headingSpans, takeWhile_chain hc hxk, headingSpans_chain hc, hx2]
    simp only [he.kind]
    have other : Sat Never (s.loop src (inl ++ x :: es)) (fun s' => Tied src s' (lss ++ headingSpans es)) := by
      obtain ⟨s', h1, h2⟩ := loop_tieInl hc (x :: es) s
      rw [h1, PreState.loop]
      simp only [hx.kind]
      exact ih (h2 _ hi).clear
    cases l
    case heading =>
      simp only [ht]
      refine (heading_tie hs hb hi hc).bind (fun s' hs' => ?_)
      have := ih hs'
      simpa using this
    case linkDefinition =>
      simp only [ht]
      exact (linkDefinition_tie hs hi (chain_spans hc)).bind (fun s' hs' => ih hs')
    all_goals exact other

/-- The first pass. -/
theorem prePass_tie (hs : Safe src) (hb : Bd src) {n : Nat} {es : List Block.Event} (h : Block.BT src [.document] n es) {e : Block.Event} (he : e.kind = .enter (.container .document)) :
    Sat Never (PrePass.new src (e :: es) (Inline.IP.new src)) (fun r => AutoIds src [] r.1.headings (headingSpans (e :: es))) := by
  unfold PrePass.new
  refine Sat.bind (P := fun s' => Tied src s' (headingSpans (e :: es))) ?_ ?_
  · rw [PreState.loop, headingSpans]
    simp only [he]
    have := loop_tie hs hb h (s := { inlineParser := Inline.IP.new src }) (lss := []) ⟨⟨by intro d hd; simp at hd, by simp, (Inline.Idle.new src).rest⟩, rfl, trivial⟩
    simpa using this
  · intro s hs
    exact Sat.pure hs.ids

end Jotdown
