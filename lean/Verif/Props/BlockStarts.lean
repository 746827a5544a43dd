import Verif.Proofs.DocSections
import Verif.Proofs.DocSem
import Verif.Spec.BlockSyntax
import Verif.Proofs.MarkerOne
/-! # Blocks begin with what is written: C53 -/
namespace Jotdown
open Jotdown Syntax

variable {src : Bytes} {pre : PrePass}

theorem startOk_of_node {ids : Nat → Bytes} {head : Bool} {n : Block.Node} {sp : Span} (h : Block.NodeOk src sp n) :
    StartOk src sp (nodeName ids head n) := by
  cases n with
  | container c =>
    cases c with
    | list ty t => cases ty <;> exact h
    | listItem k => cases k <;> exact h
    | _ => exact h
  | leaf l =>
    cases l with
    | codeBlock lang =>
      have h' : StartOk src sp (nodeName (fun _ => []) false (.leaf (.codeBlock lang))) := h
      unfold nodeName at h' ⊢
      exact h'
    | heading level hs pos => exact h.2.2
    | _ => exact h

theorem startOk_widen {a b : Nat} {c : Container} (h : StartOk src ⟨a, b⟩ c) {a' : Nat} (ha : a' ≤ a) : StartOk src ⟨a', b⟩ c := by
  cases c <;> simp only [StartOk] at h ⊢ <;> first
    | exact h
    | (obtain ⟨x, h1, h2⟩ := h; exact ⟨x, by omega, h2⟩)
    | (obtain ⟨h0, x, h1, h2⟩ := h; exact ⟨h0, x, by omega, h2⟩)

theorem startOk_cover {pend : List Span} {sp : Span} {c : Container} (h : StartOk src sp c) (hp : ∀ s ∈ pend, s.start ≤ sp.start) :
    StartOk src (cover pend sp) c := by
  unfold cover
  refine startOk_widen (a := sp.start) h ?_
  cases pend with
  | nil => exact Nat.le_refl _
  | cons s _ => exact hp s (by simp)

theorem eventOk_flush {pend : List Span} : ∀ e ∈ flush src pend, EventOk src e.2 e.1 := by
  intro e he
  cases pend with
  | nil => cases he
  | cons s l =>
    simp only [flush, List.mem_singleton] at he
    subst he
    trivial

theorem eventOk_inline {e : Event} {sp : Span} (h : InlineEv pre e) : EventOk src sp e := by
  cases e with
  | start c a => cases c <;> first | trivial | exact absurd h.1 (by simp [isInline])
  | blankline => exact absurd h (by simp [InlineEv])
  | thematicBreak => exact absurd h (by simp [InlineEv])
  | _ => trivial

theorem begin_events_ok {hd : Bool} {pend : List Span} {es : List Block.Event} {evs : List (Event × Span)}
    (h : DocEvents src pre hd pend es evs) : ∀ {st : List Block.Container} {n : Nat}, Block.BT src st n es →
      (∀ s ∈ pend, s.start ≤ n) → ∀ e ∈ evs, EventOk src e.2 e.1 := by
  induction h with
  | nil => intro st n _ _ e he; cases he
  | stale hk _ ih =>
    intro st n hb hp
    cases hb with
    | stale _ _ hb => exact ih hb hp
    | atom hk' => rw [hk] at hk'; cases hk'
    | enter hk' => rw [hk'.kind] at hk; cases hk
    | exit hk' => rw [hk'.kind] at hk; cases hk
    | leaf hk' => rw [hk'.kind] at hk; cases hk
  | attributes hk _ ih =>
    intro st n hb hp
    cases hb with
    | atom hk' hs _ _ hn hb =>
      refine ih hb ?_
      have := hs.le
      intro s hs'
      rcases List.mem_append.1 hs' with h | h
      · have := hp s h; omega
      · simp at h; subst h; exact hs.le
    | stale hk' => rw [hk] at hk'; cases hk'
    | enter hk' => rw [hk'.kind] at hk; cases hk
    | exit hk' => rw [hk'.kind] at hk; cases hk
    | leaf hk' => rw [hk'.kind] at hk; cases hk
  | blankline hk _ ih =>
    intro st n hb hp e he
    cases hb with
    | atom hk' hs ha _ hn hb =>
      rw [hk] at hk'
      cases hk'
      rcases List.mem_append.1 he with h | h
      · exact eventOk_flush e h
      · rcases List.mem_cons.1 h with rfl | h
        · exact ha
        · exact ih hb (by simp) e h
    | stale hk' => rw [hk] at hk'; cases hk'
    | enter hk' => rw [hk'.kind] at hk; cases hk
    | exit hk' => rw [hk'.kind] at hk; cases hk
    | leaf hk' => rw [hk'.kind] at hk; cases hk
  | @thematicBreak hd pend e0 es evs hk _ ih =>
    intro st n hb hp e he
    cases hb with
    | atom hk' hs ha _ hn hb =>
      rw [hk] at hk'
      cases hk'
      rcases List.mem_cons.1 he with rfl | h
      · have hle : (cover pend e0.span).start ≤ e0.span.start := by
          unfold cover
          cases pend with
          | nil => exact Nat.le_refl _
          | cons s _ => have := hp s (by simp); simp; omega
        exact ⟨e0.span.start, hle, ha⟩
      · exact ih hb (by simp) e h
    | stale hk' => rw [hk] at hk'; cases hk'
    | enter hk' => rw [hk'.kind] at hk; cases hk
    | exit hk' => rw [hk'.kind] at hk; cases hk
    | leaf hk' => rw [hk'.kind] at hk; cases hk
  | enter hk _ ih =>
    intro st n hb hp e he
    cases hb with
    | enter hk' _ _ hb =>
      have := hk'.kind
      rw [hk] at this
      cases this
      rcases List.mem_cons.1 he with rfl | h
      · exact startOk_cover (startOk_of_node hk'.node) (fun s hs => by have := hp s hs; have := hk'.lo; omega)
      · exact ih hb (by simp) e h
    | stale hk' => rw [hk] at hk'; cases hk'
    | atom hk' => rw [hk] at hk'; cases hk'
    | exit hk' => rw [hk'.kind] at hk; cases hk
    | leaf hk' => rw [hk'.kind] at hk; cases hk
  | exit hk _ ih =>
    intro st n hb hp e he
    cases hb with
    | exit hk' _ hb =>
      rcases List.mem_append.1 he with h | h
      · exact eventOk_flush e h
      · rcases List.mem_cons.1 h with rfl | h
        · trivial
        · exact ih hb (by simp) e h
    | stale hk' => rw [hk] at hk'; cases hk'
    | atom hk' => rw [hk] at hk'; cases hk'
    | enter hk' => rw [hk'.kind] at hk; cases hk
    | leaf hk' => rw [hk'.kind] at hk; cases hk
  | @leaf hd pend e0 l inl x es cs evs hk hinl hx hc _ ih =>
    intro st n hb hp e he
    obtain ⟨hen, m, c', st', hb'⟩ : Block.Enters src n e0 (.leaf l) ∧ ∃ m c' st', Block.BT src (c' :: st') m es := by
      generalize hE : e0 :: inl ++ x :: es = E at hb
      cases hb with
      | done => simp at hE
      | atom hk' => simp at hE; rw [← hE.1, hk] at hk'; cases hk'
      | stale hk' => simp at hE; rw [← hE.1, hk] at hk'; cases hk'
      | enter hk' => simp at hE; have := hk'.kind; rw [← hE.1, hk] at this; cases this
      | exit hk' => simp at hE; have := hk'.kind; rw [← hE.1, hk] at this; cases this
      | @leaf c st n l' e' inl' x' es' h1 h2 h3 h4 h5 =>
        simp only [List.cons_append, List.cons.injEq] at hE
        obtain ⟨rfl, hE⟩ := hE
        have hll := h1.kind
        rw [hk] at hll
        cases hll
        have hsplit : ∀ (A B : List Block.Event) (a b : Block.Event) (C D : List Block.Event), (∀ i ∈ A, i.kind = .inline) → (∀ i ∈ B, i.kind = .inline) →
            a.kind ≠ .inline → b.kind ≠ .inline → A ++ a :: C = B ++ b :: D → C = D := by
          intro A
          induction A with
          | nil =>
            intro B a b C D _ hB ha _ h
            cases B with
            | nil => simp at h; exact h.2
            | cons y B => simp at h; exact absurd (h.1 ▸ hB y (by simp)) ha
          | cons z A ihA =>
            intro B a b C D hA hB ha hb h
            cases B with
            | nil => simp at h; exact absurd (h.1 ▸ hA z (by simp)) hb
            | cons y B =>
              simp only [List.cons_append, List.cons.injEq] at h
              exact ihA B a b C D (fun i hi => hA i (by simp [hi])) (fun i hi => hB i (by simp [hi])) ha hb h.2
        have := hsplit inl inl' x x' es es' hinl h3.inline (by rw [hx]; simp) (by rw [h4.kind]; simp) hE
        subst this
        exact ⟨h1, _, _, _, h5⟩
    rcases List.mem_cons.1 he with rfl | h
    · exact startOk_cover (startOk_of_node hen.node) (fun s hs => by have := hp s hs; have := hen.lo; omega)
    · rcases List.mem_append.1 h with h | h
      · exact eventOk_inline (content_inline hc e h)
      · rcases List.mem_cons.1 h with rfl | h
        · trivial
        · exact ih hb' (by simp) e h

/-- **C53.** The blocks of a document are what is written where they begin: for every event that begins a block, and for thematic breaks
and blank lines, the text has the marker of such a block at this place, with the level, label, class, language, bullet, number and check
mark that the event tells, and the range of the event ends with the marker. A paragraph begins where nothing else does. -/
theorem C53_blocks_are_written (src : Bytes) (hu : Utf8 src) (evs : List (Event × Span)) (h : offsetEvents src = .ok evs) :
    ∀ e ∈ evs, EventOk src e.2 e.1 := by
  obtain ⟨p, -, hb, hd⟩ := offsetEvents_doc hu h
  obtain ⟨es, he, hbt⟩ := ((Block.parse_shape hu).of_ok hb).bt
  rw [he] at hd
  generalize hE : (⟨.enter (.container .document), ⟨0, 0⟩⟩ : Block.Event) :: es = E at hd
  cases hd with
  | nil => cases hE
  | stale hk => cases hE; cases hk
  | attributes hk => cases hE; cases hk
  | exit hk => cases hE; cases hk
  | blankline hk => cases hE; cases hk
  | thematicBreak hk => cases hE; cases hk
  | leaf hk => cases hE; cases hk
  | enter hk hd =>
    cases hE
    cases hk
    intro e he
    rcases List.mem_cons.1 he with rfl | he
    · trivial
    · exact begin_events_ok hd hbt (by simp) e he

/-- **C53**, second part: a line begins at most one kind of block, so the above determines the block. -/
theorem C53_marker_unique {l : Bytes} {o o' : Opening} {n n' : Nat} (h : Marker l o n) (h' : Marker l o' n') : o = o' ∧ n = n' :=
  Block.marker_unique h h'

/-- The starts of blocks of a text, with where their markers end. -/
def shownStarts (src : Bytes) : R (List (Container × Nat)) := do
  let evs ← offsetEvents src
  pure (evs.filterMap (fun (e : Event × Span) => match e.1 with | .start c _ => some (c, e.2.stop) | _ => none))

/-- The hypotheses are met by a document with a list and a heading, and this is what they begin with. -/
example : shownStarts (b! "- [x] a\n\n## b\n") =
    .ok [(.document, 0), (.list (.task .dash) true, 0), (.taskListItem true, 5), (.paragraph, 6), (.section (b! "b"), 9), (.heading 2 true (b! "b"), 11)] := by
  decide +kernel

example : Begins (b! "- [x] a\n\n## b\n") 0 5 (.task (c! '-') true) ∧ Begins (b! "- [x] a\n\n## b\n") 9 11 (.heading 2) :=
  ⟨⟨5, rfl, @Marker.task (c! '-') (c! 'x') (b! " a\n") (by decide) (by decide) (by intro c h; cases h; decide)⟩,
   ⟨2, rfl, @Marker.heading 2 (b! " b\n") (by decide) (by intro c h; cases h; decide)⟩⟩

end Jotdown
