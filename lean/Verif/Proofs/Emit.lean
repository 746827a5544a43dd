import Verif.Proofs.HeadIds
import Verif.Spec.Events
/-! # Events emitted for blocks and inlines: helper lemmas that hold for every run that does not panic -/
namespace Jotdown
open Jotdown

/-- How a reference is resolved. -/
def ResolvedAs (pp : PrePass) (url : Bytes) : SpanLinkType → Prop
  | .inline => True
  | .reference => (∃ label d, pp.linkDefinition label = some d ∧ d.1 = url) ∨
      ∃ tag id, pp.linkDefinition tag = none ∧ pp.headingIdByTag tag = some id ∧ url = b! "#" ++ id
  | .unresolved => pp.linkDefinition url = none ∧ pp.headingIdByTag url = none

def Resolved (pp : PrePass) : Container → Prop
  | .link url (.span t) => ResolvedAs pp url t
  | .image url t => ResolvedAs pp url t
  | _ => True

/-- Events of inline content. -/
def InlineEv (pp : PrePass) : Event → Prop
  | .start c _ => isInline c = true ∧ Resolved pp c
  | .end c => isInline c = true ∧ Resolved pp c
  | .thematicBreak _ => False
  | .blankline => False
  | _ => True

theorem reference_ok (p : Parser) (tag : Bytes) (enter : Bool) (attrs : Attr.Attributes) :
    ResolvedAs p.prePass (p.reference tag enter attrs).1 (p.reference tag enter attrs).2.1 := by
  unfold Parser.reference
  cases h : p.prePass.linkDefinition tag with
  | some d => obtain ⟨url, a⟩ := d; exact Or.inl ⟨tag, _, h, rfl⟩
  | none =>
    simp only
    cases h2 : p.prePass.headingIdByTag tag with
    | some id => exact Or.inr ⟨tag, id, h, h2, rfl⟩
    | none => exact ⟨h, h2⟩

theorem inlineContainer_ok {p : Parser} {c : Inline.Container} {enter : Bool} {attrs attrs' : Attr.Attributes} {t : Container}
    (h : p.inlineContainer c enter attrs = .ok (t, attrs')) : isInline t = true ∧ Resolved p.prePass t := by
  unfold Parser.inlineContainer at h
  cases c <;> simp only at h
  case referenceLink i =>
    obtain ⟨tag, -, h⟩ := bind_ok h
    simp only [Pure.pure, Except.pure, Except.ok.injEq, Prod.mk.injEq] at h
    obtain ⟨rfl, -⟩ := h
    exact ⟨rfl, reference_ok p tag enter attrs⟩
  case referenceImage i =>
    obtain ⟨tag, -, h⟩ := bind_ok h
    simp only [Pure.pure, Except.pure, Except.ok.injEq, Prod.mk.injEq] at h
    obtain ⟨rfl, -⟩ := h
    exact ⟨rfl, reference_ok p tag enter attrs⟩
  case inlineLink i =>
    obtain ⟨tag, -, h⟩ := bind_ok h
    simp only [Pure.pure, Except.pure, Except.ok.injEq, Prod.mk.injEq] at h
    obtain ⟨rfl, -⟩ := h
    exact ⟨rfl, trivial⟩
  case inlineImage i =>
    obtain ⟨tag, -, h⟩ := bind_ok h
    simp only [Pure.pure, Except.pure, Except.ok.injEq, Prod.mk.injEq] at h
    obtain ⟨rfl, -⟩ := h
    exact ⟨rfl, trivial⟩
  case autolink url =>
    simp only [Except.ok.injEq, Prod.mk.injEq] at h
    obtain ⟨rfl, -⟩ := h
    refine ⟨rfl, ?_⟩
    unfold Resolved
    split
    · next u t hh => simp at hh; split at hh <;> simp at hh
    · next u t hh => simp at hh
    · trivial
  all_goals
    simp only [Except.ok.injEq, Prod.mk.injEq] at h
    obtain ⟨rfl, -⟩ := h
    exact ⟨rfl, trivial⟩

theorem inlineEvent_ok {p : Parser} {e : Inline.Event} {attrs attrs' : Attr.Attributes} {ev : Event}
    (h : p.inlineEvent e attrs = .ok (ev, attrs')) : InlineEv p.prePass ev := by
  unfold Parser.inlineEvent at h
  split at h
  · obtain ⟨⟨t, a⟩, h1, h⟩ := bind_ok h
    simp only [Pure.pure, Except.pure, Except.ok.injEq, Prod.mk.injEq] at h
    obtain ⟨rfl, -⟩ := h
    exact inlineContainer_ok h1
  · obtain ⟨⟨t, a⟩, h1, h⟩ := bind_ok h
    simp only [Pure.pure, Except.pure, Except.ok.injEq, Prod.mk.injEq] at h
    obtain ⟨rfl, -⟩ := h
    exact inlineContainer_ok h1
  · next a hk =>
    simp only [Except.ok.injEq, Prod.mk.injEq] at h
    obtain ⟨rfl, -⟩ := h
    unfold atomEvent
    split <;> trivial
  · obtain ⟨_, -, h⟩ := bind_ok h
    simp only [Pure.pure, Except.pure, Except.ok.injEq, Prod.mk.injEq] at h
    obtain ⟨rfl, -⟩ := h
    trivial
  · obtain ⟨_, -, h⟩ := bind_ok h
    simp only [Pure.pure, Except.pure, Except.ok.injEq, Prod.mk.injEq] at h
    obtain ⟨rfl, -⟩ := h
    trivial
  · simp at h
  · simp at h

theorem inline_ok {p p' : Parser} {r : Option (Event × Span)} (h : p.inline = .ok (p', r)) :
    p'.prePass = p.prePass ∧ p'.blocks = p.blocks ∧ ∀ e, r = some e → InlineEv p.prePass e.1 := by
  unfold Parser.inline at h
  obtain ⟨⟨ip, next⟩, h1, h⟩ := bind_ok h
  simp only at h
  cases next with
  | none =>
    simp only [Pure.pure, Except.pure, Except.ok.injEq, Prod.mk.injEq] at h
    obtain ⟨rfl, rfl⟩ := h
    exact ⟨rfl, rfl, by simp⟩
  | some e =>
    simp only at h
    split at h
    · obtain ⟨⟨ip', e'⟩, h2, h⟩ := bind_ok h
      simp only at h
      obtain ⟨attrs, -, h⟩ := bind_ok h
      cases e' with
      | none =>
        simp only at h
        obtain ⟨_, -, h⟩ := bind_ok h
        simp only [Pure.pure, Except.pure, Except.ok.injEq, Prod.mk.injEq] at h
        obtain ⟨rfl, rfl⟩ := h
        exact ⟨rfl, rfl, by simp⟩
      | some e' =>
        simp only at h
        obtain ⟨⟨ev, rest⟩, h3, h⟩ := bind_ok h
        obtain ⟨_, -, h⟩ := bind_ok h
        simp only [Pure.pure, Except.pure, Except.ok.injEq, Prod.mk.injEq] at h
        obtain ⟨rfl, rfl⟩ := h
        refine ⟨rfl, rfl, ?_⟩
        intro e he
        cases he
        have hev := inlineEvent_ok h3
        exact hev
    · obtain ⟨⟨ev, rest⟩, h3, h⟩ := bind_ok h
      obtain ⟨_, -, h⟩ := bind_ok h
      simp only [Pure.pure, Except.pure, Except.ok.injEq, Prod.mk.injEq] at h
      obtain ⟨rfl, rfl⟩ := h
      refine ⟨rfl, rfl, ?_⟩
      intro e he
      cases he
      have hev := inlineEvent_ok h3
      exact hev

/-- The ids of the headings among the block events. -/
def blockIds (pp : PrePass) (es : List Block.Event) : List Bytes :=
  es.filterMap (fun e => match e.kind with
    | .enter (.leaf (.heading _ _ pos)) => some ((pp.headingIdByLocation pos).getD [])
    | _ => none)

/-- Events emitted for blocks. -/
def BlockEv : Event → Prop
  | .start c _ => isInline c = false
  | .end c => isInline c = false
  | _ => True

theorem leafContainer_ok {p p' : Parser} {l : Block.Leaf} {enter : Bool} {c : Container} (h : p.leafContainer l enter = .ok (p', c)) :
    p'.prePass = p.prePass ∧ p'.blocks = p.blocks ∧ p'.blockAttributes = p.blockAttributes ∧ isInline c = false ∧
      (∀ a b id, c = .heading a b id ↔ ∃ pos, l = .heading a b pos ∧ id = (p.prePass.headingIdByLocation pos).getD []) := by
  unfold Parser.leafContainer at h
  obtain ⟨ip, -, h⟩ := bind_ok h
  cases l <;> simp only [Pure.pure, Except.pure, Except.ok.injEq, Prod.mk.injEq] at h <;> obtain ⟨rfl, rfl⟩ := h
  case heading a b pos =>
    refine ⟨rfl, rfl, rfl, rfl, ?_⟩
    intro a' b' id
    simp only [Container.heading.injEq, Block.Leaf.heading.injEq]
    constructor
    · rintro ⟨rfl, rfl, rfl⟩; exact ⟨pos, ⟨rfl, rfl, rfl⟩, rfl⟩
    · rintro ⟨pos', ⟨rfl, rfl, rfl⟩, rfl⟩; exact ⟨rfl, rfl, rfl⟩
  case codeBlock s =>
    refine ⟨rfl, rfl, rfl, ?_, ?_⟩
    · split <;> rfl
    · intro a b id
      constructor
      · intro h; split at h <;> simp at h
      · rintro ⟨_, h, -⟩; simp at h
  all_goals
    refine ⟨rfl, rfl, rfl, rfl, ?_⟩
    intro a b id
    simp

theorem blockContainer_ok {p p' : Parser} {n : Block.Container} {enter : Bool} {c : Container} (h : p.blockContainer n enter = .ok (p', c)) :
    p'.prePass = p.prePass ∧ p'.blocks = p.blocks ∧ p'.blockAttributes = p.blockAttributes ∧ isInline c = false ∧ (∀ a b id, c ≠ .heading a b id) := by
  unfold Parser.blockContainer at h
  split at h
  case h_5 ty tight =>
    obtain ⟨c', h1, h⟩ := bind_ok h
    simp only [Pure.pure, Except.pure, Except.ok.injEq, Prod.mk.injEq] at h
    obtain ⟨rfl, rfl⟩ := h
    unfold listContainer at h1
    split at h1
    · cases h1; exact ⟨rfl, rfl, rfl, rfl, by simp⟩
    · split at h1
      · cases h1; exact ⟨rfl, rfl, rfl, rfl, by simp⟩
      · simp at h1
    · split at h1
      · cases h1; exact ⟨rfl, rfl, rfl, rfl, by simp⟩
      · simp at h1
    · cases h1; exact ⟨rfl, rfl, rfl, rfl, by simp⟩
  all_goals
    simp only [Except.ok.injEq, Prod.mk.injEq] at h
    obtain ⟨rfl, rfl⟩ := h
    first
    | exact ⟨rfl, rfl, rfl, rfl, by simp⟩
    | (refine ⟨?_, ?_, ?_, rfl, by simp⟩ <;> split <;> rfl)

theorem nodeContainer_ok {p p' : Parser} {n : Block.Node} {enter : Bool} {c : Container} (h : p.nodeContainer n enter = .ok (p', c)) :
    p'.prePass = p.prePass ∧ p'.blocks = p.blocks ∧ p'.blockAttributes = p.blockAttributes ∧ isInline c = false ∧
      (∀ a b id, c = .heading a b id ↔ ∃ pos, n = .leaf (.heading a b pos) ∧ id = (p.prePass.headingIdByLocation pos).getD []) := by
  unfold Parser.nodeContainer at h
  split at h
  · obtain ⟨h1, h2, h3, h4, h5⟩ := leafContainer_ok h
    refine ⟨h1, h2, h3, h4, ?_⟩
    intro a b id
    rw [h5]
    simp
  · obtain ⟨h1, h2, h3, h4, h5⟩ := blockContainer_ok h
    refine ⟨h1, h2, h3, h4, ?_⟩
    intro a b id
    simp [h5]

def stepEv : Step → List Event
  | .emit e _ => [e]
  | _ => []

theorem blockStep_ok {p p' : Parser} {s : Step} (h : p.blockStep = .ok (p', s)) :
    p'.prePass = p.prePass ∧ blockIds p.prePass p.blocks = headingIds (stepEv s) ++ blockIds p.prePass p'.blocks ∧
      (∀ e ∈ stepEv s, BlockEv e) ∧ (s = .stop → p'.blocks = []) := by
  unfold Parser.blockStep at h
  cases hb : p.blocks with
  | nil =>
    rw [hb] at h
    simp only [Except.ok.injEq, Prod.mk.injEq] at h
    obtain ⟨rfl, rfl⟩ := h
    exact ⟨rfl, by simp [headingIds, stepEv, hb], by simp [stepEv], fun _ => hb⟩
  | cons ev es =>
    rw [hb] at h
    simp only at h
    cases hk : ev.kind with
    | atom a =>
      have hids : blockIds p.prePass (ev :: es) = blockIds p.prePass es := by simp [blockIds, hk]
      rw [hids]
      cases a with
      | blankline =>
        rw [hk] at h
        simp only at h
        obtain ⟨_, -, h⟩ := bind_ok h
        simp only [Pure.pure, Except.pure, Except.ok.injEq, Prod.mk.injEq] at h
        obtain ⟨rfl, rfl⟩ := h
        exact ⟨rfl, by simp [headingIds, stepEv], by simp [stepEv, BlockEv], by simp⟩
      | thematicBreak =>
        rw [hk] at h
        simp only [Except.ok.injEq, Prod.mk.injEq] at h
        obtain ⟨rfl, rfl⟩ := h
        refine ⟨?_, by simp [headingIds, stepEv], by simp [stepEv, BlockEv], by simp⟩
        unfold Parser.takeAttrs
        split <;> rfl
      | attributes =>
        rw [hk] at h
        simp only at h
        unfold Parser.blockAttrs at h
        simp only at h
        obtain ⟨_, -, h⟩ := bind_ok h
        obtain ⟨r, -, h⟩ := bind_ok h
        cases r with
        | error _ => simp at h
        | ok attrs =>
          simp only at h
          split at h <;> (
            simp only [Pure.pure, Except.pure, Except.ok.injEq, Prod.mk.injEq] at h
            obtain ⟨rfl, rfl⟩ := h
            exact ⟨rfl, by simp [headingIds, stepEv], by simp [stepEv, BlockEv], by simp⟩)
    | enter n =>
      rw [hk] at h
      simp only at h
      obtain ⟨⟨q, c⟩, h1, h⟩ := bind_ok h
      simp only [Pure.pure, Except.pure, Except.ok.injEq, Prod.mk.injEq] at h
      obtain ⟨rfl, rfl⟩ := h
      obtain ⟨k1, k2, k3, k4, k5⟩ := nodeContainer_ok h1
      refine ⟨?_, ?_, by simpa [stepEv, BlockEv] using k4, by simp⟩
      · show (q.takeAttrs ev.span).1.prePass = _
        unfold Parser.takeAttrs
        split <;> exact k1
      · simp only [stepEv, blockIds, headingIds, List.filterMap_cons, hk, List.filterMap_nil]
        cases n with
        | container d =>
          simp only
          have : ∀ a b id, c ≠ .heading a b id := by
            intro a b id hc
            obtain ⟨_, h, -⟩ := (k5 a b id).1 hc
            simp at h
          cases c <;> first | exact absurd rfl (this _ _ _) | rfl
        | leaf l =>
          cases l with
          | heading a b pos =>
            have := (k5 a b _).2 ⟨pos, rfl, rfl⟩
            subst this
            rfl
          | _ =>
            simp only
            have : ∀ a b id, c ≠ .heading a b id := by
              intro a b id hc
              obtain ⟨_, h, -⟩ := (k5 a b id).1 hc
              simp at h
            cases c <;> first | exact absurd rfl (this _ _ _) | rfl
    | exit n =>
      rw [hk] at h
      simp only at h
      obtain ⟨⟨q, c⟩, h1, h⟩ := bind_ok h
      simp only at h
      obtain ⟨k1, k2, k3, k4, k5⟩ := nodeContainer_ok h1
      split at h
      · simp only [Pure.pure, Except.pure, Except.ok.injEq, Prod.mk.injEq] at h
        obtain ⟨rfl, rfl⟩ := h
        exact ⟨k1, by simp [headingIds, stepEv, k2, hb], by simp [stepEv, BlockEv], by simp⟩
      · simp only [Pure.pure, Except.pure, Except.ok.injEq, Prod.mk.injEq] at h
        obtain ⟨rfl, rfl⟩ := h
        exact ⟨k1, by simp [headingIds, stepEv, blockIds, hk], by simpa [stepEv, BlockEv] using k4, by simp⟩
    | inline =>
      have hids : blockIds p.prePass (ev :: es) = blockIds p.prePass es := by simp [blockIds, hk]
      rw [hids]
      rw [hk] at h
      simp only at h
      split at h
      · split at h
        · simp only [Except.ok.injEq, Prod.mk.injEq] at h
          obtain ⟨rfl, rfl⟩ := h
          exact ⟨rfl, by simp [headingIds, stepEv], by simp [stepEv], by simp⟩
        · obtain ⟨_, -, h⟩ := bind_ok h
          simp only [Pure.pure, Except.pure, Except.ok.injEq, Prod.mk.injEq] at h
          obtain ⟨rfl, rfl⟩ := h
          exact ⟨rfl, by simp [headingIds, stepEv], by simp [stepEv, BlockEv], by simp⟩
      · obtain ⟨_, -, h⟩ := bind_ok h
        simp only [Pure.pure, Except.pure, Except.ok.injEq, Prod.mk.injEq] at h
        obtain ⟨rfl, rfl⟩ := h
        exact ⟨rfl, by simp [headingIds, stepEv], by simp [stepEv], by simp⟩
    | stale =>
      have hids : blockIds p.prePass (ev :: es) = blockIds p.prePass es := by simp [blockIds, hk]
      rw [hids]
      rw [hk] at h
      simp only [Except.ok.injEq, Prod.mk.injEq] at h
      obtain ⟨rfl, rfl⟩ := h
      exact ⟨rfl, by simp [headingIds, stepEv], by simp [stepEv], by simp⟩

theorem headingIds_inline {pp : PrePass} {e : Event} (h : InlineEv pp e) (es : List Event) : headingIds (e :: es) = headingIds es := by
  cases e with
  | start c a => cases c <;> first | rfl | exact absurd h.1 (by simp [isInline])
  | _ => rfl

theorem headingIds_cons (e : Event) (es : List Event) : headingIds (e :: es) = headingIds [e] ++ headingIds es := by
  rw [← List.singleton_append]; simp only [headingIds, List.filterMap_append]

theorem nextSpan_ok (fuel : Nat) {p p' : Parser} {skip : Bool} {r : Option (Event × Span)} (h : p.nextSpan fuel skip = .ok (p', r)) :
    p'.prePass = p.prePass ∧ blockIds p.prePass p.blocks = headingIds (r.map (·.1)).toList ++ blockIds p.prePass p'.blocks ∧
      (∀ e, r = some e → InlineEv p.prePass e.1 ∨ BlockEv e.1) ∧ (r = none → p'.blocks = []) := by
  induction fuel generalizing p skip with
  | zero => simp [Parser.nextSpan] at h
  | succ fuel ih =>
    unfold Parser.nextSpan at h
    obtain ⟨⟨q, r1⟩, h1, h⟩ := bind_ok h
    have hq : q.prePass = p.prePass ∧ q.blocks = p.blocks ∧ ∀ e, r1 = some e → InlineEv p.prePass e.1 := by
      unfold Parser.inlineUnless at h1
      split at h1
      · simp only [Except.ok.injEq, Prod.mk.injEq] at h1
        obtain ⟨rfl, rfl⟩ := h1
        exact ⟨rfl, rfl, by simp⟩
      · exact inline_ok h1
    cases r1 with
    | some e =>
      simp only [Pure.pure, Except.pure, Except.ok.injEq, Prod.mk.injEq] at h
      obtain ⟨rfl, rfl⟩ := h
      have he := hq.2.2 e rfl
      refine ⟨hq.1, ?_, ?_, by simp⟩
      · simp only [Option.map_some, Option.toList_some]
        rw [headingIds_inline he, hq.2.1]
        rfl
      · intro e' he'
        cases he'
        exact Or.inl he
    | none =>
      simp only at h
      obtain ⟨⟨q2, s⟩, h2, h⟩ := bind_ok h
      obtain ⟨k1, k2, k3, k4⟩ := blockStep_ok h2
      rw [hq.1, hq.2.1] at k2
      rw [hq.1] at k1
      cases s with
      | emit e sp =>
        simp only [Pure.pure, Except.pure, Except.ok.injEq, Prod.mk.injEq] at h
        obtain ⟨rfl, rfl⟩ := h
        refine ⟨k1, k2, ?_, by simp⟩
        intro e' he'
        cases he'
        exact Or.inr (k3 e (by simp [stepEv]))
      | cont =>
        have := ih h
        rw [k1] at this
        refine ⟨this.1, ?_, this.2.2⟩
        rw [k2, ← this.2.1]
        rfl
      | fed =>
        have := ih h
        rw [k1] at this
        refine ⟨this.1, ?_, this.2.2⟩
        rw [k2, ← this.2.1]
        rfl
      | stop =>
        have hb := k4 rfl
        simp only at h
        split at h
        · simp only [Pure.pure, Except.pure, Except.ok.injEq, Prod.mk.injEq] at h
          obtain ⟨rfl, rfl⟩ := h
          refine ⟨k1, ?_, ?_, by simp⟩
          · rw [k2]; simp [headingIds, stepEv]
          · intro e' he'
            cases he'
            exact Or.inr trivial
        · simp only [Pure.pure, Except.pure, Except.ok.injEq, Prod.mk.injEq] at h
          obtain ⟨rfl, rfl⟩ := h
          refine ⟨k1, ?_, by simp, fun _ => hb⟩
          rw [k2]; simp [headingIds, stepEv]

theorem collect_ok (fuel : Nat) {p : Parser} {es : List (Event × Span)} (h : p.collect fuel = .ok es) :
    headingIds (es.map (·.1)) = blockIds p.prePass p.blocks ∧ ∀ e ∈ es, InlineEv p.prePass e.1 ∨ BlockEv e.1 := by
  induction fuel generalizing p es with
  | zero => simp [Parser.collect] at h
  | succ fuel ih =>
    unfold Parser.collect at h
    obtain ⟨⟨q, r⟩, h1, h⟩ := bind_ok h
    obtain ⟨k1, k2, k3, k4⟩ := nextSpan_ok _ h1
    cases r with
    | none =>
      simp only [Pure.pure, Except.pure, Except.ok.injEq] at h
      subst h
      refine ⟨?_, by simp⟩
      rw [k2, k4 rfl]
      rfl
    | some e =>
      simp only at h
      obtain ⟨es', h2, h⟩ := bind_ok h
      simp only [Pure.pure, Except.pure, Except.ok.injEq] at h
      subst h
      obtain ⟨i1, i2⟩ := ih h2
      rw [k1] at i1 i2
      refine ⟨?_, ?_⟩
      · rw [List.map_cons, headingIds_cons, i1, k2]
        rfl
      · intro e' he'
        rcases List.mem_cons.1 he' with rfl | he'
        · exact k3 _ rfl
        · exact i2 e' he'

end Jotdown
