import Verif.Proofs.RoundLoop
import Verif.Proofs.Term
/-! # Round trip: the term of an item of a description list -/
namespace Jotdown.Round
open Jotdown Jotdown.Notation

/-- Closing the open list of children. -/
theorem closeInner_open {q p' : Block.TP} {ty0 tyk : Block.ListType} {s : Span} {t pb : Bool} {E : List Block.Event} {pos : Nat}
    (h : (pend q ty0 tyk s t pb false E).closeInnerList pos = .ok p') :
    p' = app (mark q (.set false)) (⟨.enter (.container (.list ty0 t)), s⟩ :: (E ++ [⟨.exit (.container (.list ty0 t)), ⟨pos, pos⟩⟩])) := by
  simp only [Block.TP.closeInnerList, pend, dassert] at h
  simp [Bind.bind, Except.bind, pure, Except.pure, Block.TP.closeList, Block.TP.exit, Block.TP.enterNode, idx] at h
  rw [← h]
  simp [app, mark]

/-- A list that begins after the term and the blank lines. -/
theorem split_list {X P B D' E : List Block.Event} {y z : Block.Event} (h : X ++ y :: (E ++ [z]) = P ++ (B ++ D')) (hP : P.length ≤ X.length)
    (hB : ∀ b ∈ B, b ≠ y) :
    ∃ D, X = P ++ (B ++ D) ∧ D' = D ++ y :: (E ++ [z]) := by
  obtain ⟨Y, rfl, h2⟩ : ∃ Y, X = P ++ Y ∧ Y ++ y :: (E ++ [z]) = B ++ D' := by
    rcases List.append_eq_append_iff.1 h with ⟨as, h1, h2⟩ | ⟨as, h1, h2⟩
    · have : as = [] := by
        have := congrArg List.length h1
        rw [List.length_append] at this
        exact List.length_eq_zero_iff.1 (by omega)
      subst this
      exact ⟨[], by simpa using h1.symm, by simpa using h2⟩
    · exact ⟨as, h1, h2.symm⟩
  rcases List.append_eq_append_iff.1 h2 with ⟨as, h3, h4⟩ | ⟨as, h3, h4⟩
  · cases as with
    | nil => exact ⟨[], by rw [h3]; simp, by simpa using h4.symm⟩
    | cons a as =>
      exfalso
      simp only [List.cons_append, List.cons.injEq] at h4
      exact hB a (by rw [h3]; simp) h4.1.symm
  · exact ⟨as, by rw [h3], h4⟩

/-- The events of an item with a term. -/
def termShape (c : Block.Container) (s x sl el : Span) (d : Nat) (sps : List Span) (B D : List Block.Event) : List Block.Event :=
  ⟨.stale, s⟩ :: ⟨.stale, x⟩ :: ⟨.enter (.leaf .descriptionTerm), s⟩ :: (sps.map (fun l => (⟨.inline, l⟩ : Block.Event)) ++ ⟨.exit (.leaf .descriptionTerm), el⟩ ::
    (B ++ ⟨.enter (.container c), ⟨d, d⟩⟩ :: D))

/-- The conversion of a term. -/
theorem convert_shape {p p' : Block.TP} {c : Block.Container} {M : List Block.Event} {s x sd sl el : Span} {sps : List Span} {B D : List Block.Event} {o : Nat}
    (hev : p.events = M ++ [⟨.enter (.leaf .descriptionTerm), s⟩, ⟨.exit (.leaf .descriptionTerm), x⟩, ⟨.enter (.container c), sd⟩] ++ (leafEvents .paragraph sl el sps ++ (B ++ D)))
    (hB : ∀ b ∈ B, b.kind = .atom .blankline) (hD : ∀ d rest, D = d :: rest → d.kind ≠ .atom .blankline) (ho : o < p.open_.length)
    (h : p.convertTerm c M.length (M.length + 2) o = .ok p') :
    ∃ d, p' = { p with events := M ++ termShape c s x sl el d sps B D, open_ := p.open_.set (p.open_.length - 1 - o) (M.length + 4 + sps.length + B.length) } := by
  have hconv := Block.convertTerm_eq p c M ⟨.enter (.leaf .descriptionTerm), s⟩ ⟨.exit (.leaf .descriptionTerm), x⟩ ⟨.enter (.container c), sd⟩
      ⟨.enter (.leaf .paragraph), sl⟩ (sps.map (fun l => ⟨.inline, l⟩)) ⟨.exit (.leaf .paragraph), el⟩ B D o
      (by rw [hev]; simp [leafEvents]) rfl (by simp) rfl hB hD ho
  rw [hconv] at h
  cases h
  exact ⟨Block.detailPos ⟨.exit (.leaf .paragraph), el⟩ B D, by simp [termShape]⟩

/-- The end of an item of a description list. -/
theorem term_end {q p2 p' : Block.TP} {c : Block.Container} {s x sd e : Span} {tr : List Mk} {le : Bool} {Sh : List Block.Event → Prop}
    {Sh2 : List Span → List Block.Event → List Block.Event → Prop} (hq : Near q) (hE : Ends le p2)
    (hg : Goes ((app q [⟨.enter (.leaf .descriptionTerm), s⟩, ⟨.exit (.leaf .descriptionTerm), x⟩]).enter (.container c) sd) tr Sh p2)
    (hSh : ∀ E, Sh E → ∃ s e sps B D, E = leafEvents .paragraph s e sps ++ (B ++ D) ∧ (∀ b ∈ B, b.kind = .atom .blankline)
      ∧ (∀ d rest, D = d :: rest → d.kind ≠ .atom .blankline) ∧ Sh2 sps B D)
    (h : p2.endContainer c e (some (q.events.length, q.events.length + 2, q.open_.length)) = .ok p') :
    ∃ sl el d sps B D a', Sh2 sps B D ∧
      p' = al (app (marks q (tr ++ if le then [.set false] else [])) (termShape c s x sl el d sps B (D ++ [⟨.exit (.container c), e⟩]))) a' := by
  unfold Block.TP.endContainer at h
  obtain ⟨p3, h1, h2⟩ := bind_ok h
  clear h
  obtain ⟨p4, h3, h4⟩ := bind_ok h2
  clear h2
  simp only [Block.TP.endTerm] at h1
  obtain ⟨pos0, E, a', hs, he⟩ := hg e.start
  obtain ⟨sl, el, sps, B, D', rfl, hB, hD, hs2⟩ := hSh E hs
  have hcalm := (hq.app [⟨.enter (.leaf .descriptionTerm), s⟩, ⟨.exit (.leaf .descriptionTerm), x⟩]).enter (.container c) sd
  rw [hcalm.settle, enter_eq, marks_open, marks_app (hq.app _), marks_app hq] at he
  have hf := marks_facts q tr
  have hlen := hf.2.2.2.2.1
  have ho : q.open_ = (marks q tr).open_ := hf.2.2.1.symm
  have hl : q.openLists = (marks q tr).openLists := hf.2.1.symm
  rw [← hlen] at h1
  rw [marks_append]
  generalize marks q tr = m at *
  cases le with
  | false =>
    have hc2 : Calm p2 := hE
    rw [hc2.settle] at he
    obtain ⟨d, rfl⟩ := convert_shape (s := s) (x := x) (sd := sd) (sl := sl) (el := el) (sps := sps) (B := B) (D := D') (by rw [he]; simp [al, app]) hB hD (by rw [he]; simp [al, app]) h1
    have hop : p2.open_ = (q.events.length + 2) :: q.open_ := by rw [he]; simp [al, app]
    have e4 := closeInner_calm ⟨(by
      intro l ls hl
      have := hc2.lists l ls hl
      have h2 := this.2
      rw [he] at h2
      refine ⟨by simpa using this.1, ?_⟩
      simp [al, app, leafEvents, termShape] at h2 ⊢
      omega), (by
      intro i hi
      simp only [hop, List.length_cons, Nat.add_sub_cancel, Nat.sub_self, List.set_cons_zero, List.mem_cons] at hi
      simp [termShape]
      rcases hi with rfl | hi
      · omega
      · have := hq.opn i hi
        omega)⟩ h3
    subst e4
    rw [exit_eq (i := m.events.length + 4 + sps.length + B.length) (rest := q.open_) (n := .container c) (s := ⟨d, d⟩) (by simp [hop]) (by
      simp only [termShape]
      rw [show m.events ++ (⟨.stale, s⟩ : Block.Event) :: ⟨.stale, x⟩ :: ⟨.enter (.leaf .descriptionTerm), s⟩ ::
          (List.map (fun l => (⟨.inline, l⟩ : Block.Event)) sps ++ ⟨.exit (.leaf .descriptionTerm), el⟩ :: (B ++ ⟨.enter (.container c), ⟨d, d⟩⟩ :: D'))
        = (m.events ++ (⟨.stale, s⟩ : Block.Event) :: ⟨.stale, x⟩ :: ⟨.enter (.leaf .descriptionTerm), s⟩ ::
          (List.map (fun l => (⟨.inline, l⟩ : Block.Event)) sps ++ ⟨.exit (.leaf .descriptionTerm), el⟩ :: B)) ++ ⟨.enter (.container c), ⟨d, d⟩⟩ :: D' by simp]
      rw [Block.get_mid _ _ (by simp; omega)]
      rfl) h4]
    refine ⟨sl, el, d, sps, B, D', a', hs2, ?_⟩
    rw [he]
    simp [al, app, termShape, ho]
  | true =>
    obtain ⟨q', ty0, tyk, sq, t, pb, EL, hq', rfl⟩ := (show Pending p2 from hE)
    rw [pend_close] at he
    have hop : q'.open_ = (q.events.length + 2) :: q.open_ := by
      have := congrArg Block.TP.open_ he
      simpa [al, app, mark] using this
    have hbd := hq'.opn (q.events.length + 2) (by rw [hop]; simp)
    have hev : q'.events ++ (⟨.enter (.container (.list ty0 t)), sq⟩ : Block.Event) :: (EL ++ [⟨.exit (.container (.list ty0 t)), ⟨e.start, e.start⟩⟩])
        = (m.events ++ [⟨.enter (.leaf .descriptionTerm), s⟩, ⟨.exit (.leaf .descriptionTerm), x⟩, ⟨.enter (.container c), sd⟩]) ++ ((leafEvents .paragraph sl el sps ++ B) ++ D') := by
      have := congrArg Block.TP.events he
      simpa [al, app, mark] using this
    obtain ⟨D, hX, rfl⟩ := split_list hev (by simp [hlen]; omega) (by
      intro b hb
      rw [List.mem_append] at hb
      rcases hb with hb | hb
      · simp only [leafEvents, List.mem_cons, List.mem_append, List.mem_map, List.not_mem_nil, or_false] at hb
        rcases hb with rfl | ⟨l, -, rfl⟩ | rfl <;> simp
      · rintro rfl
        have := hB _ hb
        simp at this)
    obtain ⟨d, rfl⟩ := convert_shape (s := s) (x := x) (sd := sd) (sl := sl) (el := el) (sps := sps) (B := B) (D := D ++ ⟨.enter (.container (.list ty0 t)), sq⟩ :: EL)
      (by simp [pend, hX]) hB (by
        intro d rest hd
        cases D with
        | nil => cases hd; simp
        | cons y D => cases hd; exact hD d _ rfl) (by simp [pend, hop]; omega) h1
    have hXl := congrArg List.length hX
    obtain ⟨q2, hq2⟩ : ∃ q2 : Block.TP, q2 = { q' with events := m.events ++ termShape c s x sl el d sps B D, open_ := (m.events.length + 4 + sps.length + B.length) :: q.open_ } := ⟨_, rfl⟩
    have hp : ({ (pend q' ty0 tyk sq t pb false EL) with
        events := m.events ++ termShape c s x sl el d sps B (D ++ ⟨.enter (.container (.list ty0 t)), sq⟩ :: EL)
        open_ := (pend q' ty0 tyk sq t pb false EL).open_.set ((pend q' ty0 tyk sq t pb false EL).open_.length - 1 - q.open_.length) (m.events.length + 4 + sps.length + B.length) } : Block.TP)
        = pend q2 ty0 tyk sq t pb false EL := by
      rw [hq2]
      have hl2 : q'.events.length = (m.events ++ termShape c s x sl el d sps B D).length := by
        rw [hX]
        simp [termShape, leafEvents]
        omega
      simp only [pend, hop, ← hl2, List.length_cons]
      rw [show q.open_.length + 1 + 1 - 1 - q.open_.length = 1 by omega]
      simp [termShape]
    rw [hp] at h3
    have e4 := closeInner_open h3
    subst e4
    rw [exit_eq (i := m.events.length + 4 + sps.length + B.length) (rest := q.open_) (n := .container c) (s := ⟨d, d⟩) (by rw [hq2]; simp [mark]) (by
      rw [hq2]
      simp only [app, mark, termShape]
      rw [show ∀ Z, (m.events ++ (⟨.stale, s⟩ : Block.Event) :: ⟨.stale, x⟩ :: ⟨.enter (.leaf .descriptionTerm), s⟩ ::
          (List.map (fun l => (⟨.inline, l⟩ : Block.Event)) sps ++ ⟨.exit (.leaf .descriptionTerm), el⟩ :: (B ++ ⟨.enter (.container c), ⟨d, d⟩⟩ :: D))) ++ Z
        = (m.events ++ (⟨.stale, s⟩ : Block.Event) :: ⟨.stale, x⟩ :: ⟨.enter (.leaf .descriptionTerm), s⟩ ::
          (List.map (fun l => (⟨.inline, l⟩ : Block.Event)) sps ++ ⟨.exit (.leaf .descriptionTerm), el⟩ :: B)) ++ ⟨.enter (.container c), ⟨d, d⟩⟩ :: (D ++ Z) by intro Z; simp]
      rw [Block.get_mid _ _ (by simp; omega)]
      rfl) h4]
    refine ⟨sl, el, d, sps, B, _, a', hs2, ?_⟩
    rw [hq2]
    have f1 := congrArg Block.TP.src he
    have f2 := congrArg Block.TP.attrStart he
    have f3 := congrArg Block.TP.openLists he
    have f4 := congrArg Block.TP.openSections he
    have f5 := congrArg Block.TP.alignments he
    simp [al, app, mark] at f1 f2 f3 f4 f5
    simp [al, app, mark, termShape, ho, f1, f2, f3, f4, f5]
end Jotdown.Round
