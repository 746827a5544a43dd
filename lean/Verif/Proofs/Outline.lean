import Verif.Spec.Headings
import Verif.Proofs.BTail
import Verif.Proofs.DocSections
import Verif.Proofs.SimLines
import Verif.Proofs.Ids
import Verif.Proofs.MarkerSound
/-! # The headings and definitions of the first pass are those of the events -/
namespace Jotdown
open Jotdown
variable {src : Bytes} {pre : PrePass}

/-! ## Stale events -/

/-- The two events that may follow a stale event. -/
def staleNext (es : List Block.Event) : Bool := nextIs es .stale || nextIs es (.enter (.leaf .descriptionTerm))

/-- Stale events are only before description terms. -/
def staleOk : List Block.Event → Bool
  | [] => true
  | e :: es => (e.kind != .stale || staleNext es) && staleOk es

theorem staleOk_cons {e : Block.Event} {es : List Block.Event} (h : e.kind ≠ .stale) : staleOk (e :: es) = staleOk es := by
  simp [staleOk, h]

theorem staleOk_chain {fed : Bool} {lo hi : Nat} {inl : List Block.Event} (h : Block.InlChain src fed lo inl hi) (K : List Block.Event) : staleOk (inl ++ K) = staleOk K := by
  induction h with
  | nil => rfl
  | cons k _ _ _ _ ih => rw [List.cons_append, staleOk_cons (by rw [k]; simp), ih]

theorem staleOk_seg {l : Block.Leaf} {lo hi : Nat} {es : List Block.Event} (h : Block.LeafSeg src l lo es hi) (K : List Block.Event) : staleOk (es ++ K) = staleOk K := by
  cases h with
  | mk a b x d =>
    simp only [List.cons_append, List.append_assoc, List.nil_append]
    rw [staleOk_cons (by rw [a.kind]; simp), staleOk_chain b, staleOk_cons (by rw [x.kind]; simp)]

theorem staleOk_cells {lo hi : Nat} {es : List Block.Event} (h : Block.Cells src lo es hi) (K : List Block.Event) : staleOk (es ++ K) = staleOk K := by
  induction h with
  | nil h => rfl
  | cons h1 h2 h3 h4 h5 h6 h7 ih =>
    simp only [List.cons_append, List.append_assoc]
    rw [staleOk_cons (by rw [h1.kind]; simp), staleOk_cons (by rw [h2]; simp), staleOk_cons (by rw [h6.kind]; simp)]
    simpa using ih

theorem staleOk_rows {lo hi : Nat} {es : List Block.Event} (h : Block.Rows src lo es hi) (K : List Block.Event) : staleOk (es ++ K) = staleOk K := by
  induction h with
  | nil h => rfl
  | cons h1 h2 h3 h4 ih =>
    simp only [List.cons_append, List.append_assoc]
    rw [staleOk_cons (by rw [h1.kind]; simp), staleOk_cells h2, staleOk_cons (by rw [h3.kind]; simp), ih]

theorem staleOk_forest {cx : Block.Cx} {lo hi : Nat} {es : List Block.Event} (h : Block.Forest src cx lo es hi) (K : List Block.Event) : staleOk (es ++ K) = staleOk K := by
  induction h generalizing K with
  | nil h => rfl
  | atom k a b d _ ih => rw [List.cons_append, staleOk_cons (by rw [k]; simp), ih]
  | leaf h1 h2 h3 h4 _ ih =>
    simp only [List.cons_append, List.append_assoc]
    rw [staleOk_cons (by rw [h1.kind]; simp), staleOk_chain h3, staleOk_cons (by rw [h4.kind]; simp), ih]
  | term h1 h2 h3 h4 h5 h6 _ ih =>
    simp only [List.cons_append, List.append_assoc]
    rw [staleOk, staleOk, staleOk_cons (by rw [h4.kind]; simp), staleOk_chain h5, staleOk_cons (by rw [h6.kind]; simp), ih]
    simp [staleNext, nextIs, h2.1, h4.kind]
  | table h1 h2 h3 h4 _ ih =>
    simp only [List.cons_append, List.append_assoc]
    rw [staleOk_cons (by rw [h1.kind]; simp)]
    rcases h2.2 with rfl | hseg
    · rw [List.nil_append, staleOk_rows h3, staleOk_cons (by rw [h4.kind]; simp), ih]
    · rw [staleOk_seg hseg, staleOk_rows h3, staleOk_cons (by rw [h4.kind]; simp), ih]
  | node h1 h2 h3 h4 _ ih1 ih2 =>
    simp only [List.cons_append, List.append_assoc]
    rw [staleOk_cons (by rw [h1.kind]; simp), ih1, staleOk_cons (by rw [h4.kind]; simp), ih2]

theorem staleOk_sections {b u u' lo hi : Nat} {es : List Block.Event} (h : Block.Sections src b u u' lo es hi) (K : List Block.Event) : staleOk (es ++ K) = staleOk K := by
  induction h generalizing K with
  | nil h => rfl
  | cons h1 h2 h3 h4 h5 h6 h7 h8 h9 h10 ih1 ih2 =>
    simp only [List.cons_append, List.append_assoc]
    rw [staleOk_forest h1.forest, staleOk_cons (by rw [h2.kind]; simp), staleOk_seg h6, staleOk_forest h7, ih1, staleOk_cons (by rw [h9.kind]; simp), ih2]

theorem staleOk_parse (hu : Utf8 src) {blocks : List Block.Event} (h : Block.parse src = .ok blocks) : staleOk blocks = true := by
  obtain ⟨F, S, m, u, h1, h2, h3⟩ := ((Block.parse_shape hu).of_ok h).ev
  rw [h1]
  simp only [List.cons_append, List.append_assoc]
  rw [staleOk_cons (by simp), staleOk_forest h2, staleOk_sections h3]
  rfl

/-! ## The lines of headings -/

theorem headingSpans_chains {st : List Block.Container} {n : Nat} {es : List Block.Event} (h : Block.BT src st n es) :
    ∀ ls ∈ headingSpans es, ∃ lo hi inl, Block.InlChain src true lo inl hi ∧ ls = inl.map (·.span) := by
  induction h with
  | done => intro ls h; simp [headingSpans] at h
  | atom hk _ _ _ _ _ ih => rw [headingSpans]; simp only [hk]; exact ih
  | stale hk _ _ ih => rw [headingSpans]; simp only [hk]; exact ih
  | enter he _ _ _ ih => rw [headingSpans]; simp only [he.kind]; exact ih
  | exit he _ _ ih => rw [headingSpans]; simp only [he.kind]; exact ih
  | @leaf c st n l e inl x es he hm hc hx _ ih =>
    have hxk : x.kind ≠ .inline := by rw [hx.kind]; simp
    have hx2 : headingSpans (x :: es) = headingSpans es := by rw [headingSpans]; simp only [hx.kind]
    rw [List.cons_append, headingSpans, takeWhile_chain hc hxk, headingSpans_chain hc, hx2]
    simp only [he.kind]
    cases l
    case heading =>
      intro ls hls
      rcases List.mem_cons.1 hls with rfl | hls
      · exact ⟨_, _, inl, hc, rfl⟩
      · exact ih ls hls
    all_goals exact ih

/-! ## What is read in the second pass -/

theorem inlineEvent_content {p : Parser} {e : Inline.Event} {attrs rest : Attr.Attributes} {ev : Event} (h : p.inlineEvent e attrs = .ok (ev, rest)) :
    plainContent [ev] = eventContent p.src e := by
  obtain ⟨k, sp⟩ := e
  cases k with
  | enter c =>
    unfold Parser.inlineEvent at h
    obtain ⟨⟨t, a⟩, -, h⟩ := bind_ok h
    simp only [Pure.pure, Except.pure, Except.ok.injEq, Prod.mk.injEq] at h
    rw [← h.1]; rfl
  | exit c =>
    unfold Parser.inlineEvent at h
    obtain ⟨⟨t, a⟩, -, h⟩ := bind_ok h
    simp only [Pure.pure, Except.pure, Except.ok.injEq, Prod.mk.injEq] at h
    rw [← h.1]; rfl
  | atom a =>
    unfold Parser.inlineEvent at h
    simp only [Except.ok.injEq, Prod.mk.injEq] at h
    rw [← h.1]
    cases a with
    | quote ty left => cases ty <;> cases left <;> rfl
    | _ => rfl
  | empty =>
    unfold Parser.inlineEvent at h
    obtain ⟨_, -, h⟩ := bind_ok h
    simp only [Pure.pure, Except.pure, Except.ok.injEq, Prod.mk.injEq] at h
    rw [← h.1]; rfl
  | str =>
    unfold Parser.inlineEvent at h
    obtain ⟨s, h1, h⟩ := bind_ok h
    simp only [Pure.pure, Except.pure, Except.ok.injEq, Prod.mk.injEq] at h
    rw [← h.1]
    have := Block.strSlice_val h1
    simp [plainContent, eventContent, this]
  | attributes => cases h
  | placeholder => cases h

theorem plainContent_cons (e : Event) (es : List Event) : plainContent (e :: es) = plainContent [e] ++ plainContent es := by
  simp [plainContent]

theorem reads_drains {p p' : Parser} {cs : List (Event × Span)} (h : Reads p cs p') :
    p'.src = p.src ∧ ∃ es, Drains p.inlineParser es p'.inlineParser ∧ plainContent (cs.map (·.1)) = es.flatMap (eventContent p.src) := by
  induction h with
  | @none p p' h =>
    unfold Parser.inline at h
    obtain ⟨⟨ip, next⟩, h1, h⟩ := bind_ok h
    cases next with
    | none =>
      simp only [Pure.pure, Except.pure, Except.ok.injEq, Prod.mk.injEq, and_true] at h
      subst h
      exact ⟨rfl, [], .none h1, rfl⟩
    | some e =>
      simp only at h
      split at h
      · rename_i n i hk
        obtain ⟨⟨ip', e'⟩, h2, h⟩ := bind_ok h
        obtain ⟨attrs, h3, h⟩ := bind_ok h
        cases e' with
        | none =>
          obtain ⟨_, -, h⟩ := bind_ok h
          simp only [Pure.pure, Except.pure, Except.ok.injEq, Prod.mk.injEq, and_true] at h
          subst h
          exact ⟨rfl, [e], .some h1 (.none h2), by simp [eventContent, hk, plainContent]⟩
        | some e' =>
          obtain ⟨⟨ev, rest⟩, h4, h⟩ := bind_ok h
          obtain ⟨_, -, h⟩ := bind_ok h
          simp [Pure.pure, Except.pure] at h
      · obtain ⟨⟨ev, rest⟩, h4, h⟩ := bind_ok h
        obtain ⟨_, -, h⟩ := bind_ok h
        simp [Pure.pure, Except.pure] at h
  | @some p p' p'' e es h _ ih =>
    obtain ⟨hs, ds, hd, hc⟩ := ih
    unfold Parser.inline at h
    obtain ⟨⟨ip, next⟩, h1, h⟩ := bind_ok h
    cases next with
    | none => simp [Pure.pure, Except.pure] at h
    | some f =>
      simp only at h
      split at h
      · rename_i n i hk
        obtain ⟨⟨ip', e'⟩, h2, h⟩ := bind_ok h
        obtain ⟨attrs, h3, h⟩ := bind_ok h
        cases e' with
        | none =>
          obtain ⟨_, -, h⟩ := bind_ok h
          simp [Pure.pure, Except.pure] at h
        | some e' =>
          obtain ⟨⟨ev, rest⟩, h4, h⟩ := bind_ok h
          obtain ⟨_, -, h⟩ := bind_ok h
          simp only [Pure.pure, Except.pure, Except.ok.injEq, Prod.mk.injEq, Option.some.injEq] at h
          obtain ⟨h5, h6⟩ := h
          subst h5 h6
          refine ⟨hs, f :: e' :: ds, .some h1 (.some h2 hd), ?_⟩
          have := inlineEvent_content h4
          simp only at this hc
          rw [List.map_cons, plainContent_cons, hc, this]
          simp [eventContent, hk]
      · obtain ⟨⟨ev, rest⟩, h4, h⟩ := bind_ok h
        obtain ⟨_, -, h⟩ := bind_ok h
        simp only [Pure.pure, Except.pure, Except.ok.injEq, Prod.mk.injEq, Option.some.injEq] at h
        obtain ⟨h5, h6⟩ := h
        subst h5 h6
        refine ⟨hs, f :: ds, .some h1 hd, ?_⟩
        have := inlineEvent_content h4
        simp only at this hc
        rw [List.map_cons, plainContent_cons, hc, this]
        simp

theorem lines_drains {p : Parser} {ls : List Span} {cs : List (Event × Span)} (h : ReadsLines p ls cs) :
    ∃ es, DrainsLines p.inlineParser ls es ∧ plainContent (cs.map (·.1)) = es.flatMap (eventContent p.src) := by
  induction h with
  | nil => exact ⟨[], .nil, rfl⟩
  | @cons p ip p' l ls es es' h1 h2 h3 ih =>
    obtain ⟨hs, ds, hd, hc⟩ := reads_drains h2
    obtain ⟨ds', hd', hc'⟩ := ih
    refine ⟨ds ++ ds', .cons h1 hd hd', ?_⟩
    simp only at hs hc
    rw [hs] at hc'
    rw [List.map_append, plainContent, List.flatMap_append, List.flatMap_append, ← hc, ← hc']
    rfl

/-! ## Walking over events -/

theorem walk_inline {cs : List (Event × Span)} (h : ∀ e ∈ cs, InlineEv pre e.1) (given : Attr.Attributes) (K : List Event) :
    (∃ given', headingsFrom false given (cs.map (·.1) ++ K) = headingsFrom false given' K ∧ definitionsFrom false given (cs.map (·.1) ++ K) = definitionsFrom false given' K) ∧
    headingsFrom true given (cs.map (·.1) ++ K) = headingsFrom true given K ∧ definitionsFrom true given (cs.map (·.1) ++ K) = definitionsFrom true given K ∧
    (cs.map (·.1)).all (fun e => !isHeadingEnd e) = true := by
  induction cs generalizing given with
  | nil => exact ⟨⟨given, rfl, rfl⟩, rfl, rfl, rfl⟩
  | cons e cs ih =>
    have h1 := h e (by simp)
    have ih := fun g => ih (fun x hx => h x (by simp [hx])) g
    obtain ⟨e, sp⟩ := e
    simp only at h1
    have key : inHeading false e = false ∧ inHeading true e = true ∧ isHeadingEnd e = false ∧
        (∀ g inH es, headingsFrom inH g (e :: es) = headingsFrom (inHeading inH e) (carry inH g e) es) ∧
        (∀ g inH es, definitionsFrom inH g (e :: es) = definitionsFrom (inHeading inH e) (carry inH g e) es) := by
      cases e with
      | start c a => cases c <;> first | exact ⟨rfl, rfl, rfl, fun _ _ _ => rfl, fun _ _ _ => rfl⟩ | (exfalso; exact absurd h1.1 (by simp [isInline]))
      | «end» c => cases c <;> first | exact ⟨rfl, rfl, rfl, fun _ _ _ => rfl, fun _ _ _ => rfl⟩ | (exfalso; exact absurd h1.1 (by simp [isInline]))
      | _ => exact ⟨rfl, rfl, rfl, fun _ _ _ => rfl, fun _ _ _ => rfl⟩
    obtain ⟨k1, k2, k3, k4, k5⟩ := key
    simp only [List.map_cons, List.cons_append]
    refine ⟨?_, ?_, ?_, ?_⟩
    · rw [k4, k5, k1]
      exact (ih _).1
    · rw [k4, k2]; exact (ih _).2.1
    · rw [k5, k2]; exact (ih _).2.2.1
    · rw [List.all_cons, k3]; simpa using (ih given).2.2.2

end Jotdown
