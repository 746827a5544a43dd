import Verif.Proofs.HtmlLive
/-! # Rendering two streams that differ only in texts -/
namespace Jotdown.Html
open Jotdown

theorem eraseText_cases {e e' : Event} (h : eraseText e = eraseText e') :
    (∃ s s', e = .str s ∧ e' = .str s') ∨ ((∀ s, e ≠ .str s) ∧ e' = e) := by
  by_cases h1 : ∃ s, e = .str s
  · obtain ⟨s, rfl⟩ := h1
    cases e' <;> first | exact .inl ⟨_, _, rfl, rfl⟩ | simp [eraseText] at h
  · right
    refine ⟨fun s h' => h1 ⟨s, h'⟩, ?_⟩
    cases e <;> first | exact absurd ⟨_, rfl⟩ h1 | skip
    all_goals (cases e' <;> first | exact h.symm | (simp [eraseText] at h))

/-- Footnote caches without texts. -/
def eraseCache (m : List (Bytes × List Event)) : List (Bytes × List Event) :=
  m.map (fun p => (p.1, p.2.map eraseText))

/-! ## Replacing the footnotes of a renderer -/

theorem block_swap (r : Renderer) (g : Footnotes) (c : Int) :
    ({ r with footnotes := g }).block c = ({ (r.block c).1 with footnotes := g }, (r.block c).2) := by
  obtain ⟨ind, depth, raw, img, lt, fl, ig, fn⟩ := r
  cases ind with
  | none => rfl
  | some i =>
    simp only [Renderer.block]
    by_cases h1 : c < 0
    · have h2 : ¬ 0 < c := by omega
      simp only [if_pos h1, if_neg h2]
      rfl
    · simp only [if_neg h1]
      by_cases h2 : 0 < c
      · simp only [if_pos h2]; rfl
      · simp only [if_neg h2]; rfl

theorem startBlock_swap (r : Renderer) (g : Footnotes) (c : Container) :
    ({ r with footnotes := g }).startBlock c = ({ (r.startBlock c).1 with footnotes := g }, (r.startBlock c).2) := by
  unfold Renderer.startBlock
  split
  · exact block_swap _ _ _
  · rfl

theorem closeBlock_swap (r : Renderer) (g : Footnotes) (c : Container) :
    ({ r with footnotes := g }).closeBlock c = ({ (r.closeBlock c).1 with footnotes := g }, (r.closeBlock c).2) := by
  unfold Renderer.closeBlock
  split
  · exact block_swap _ _ _
  · rfl

theorem closeStart_swap (r : Renderer) (g : Footnotes) (c : Container) :
    ({ r with footnotes := g }).closeStart c = ({ (r.closeStart c).1 with footnotes := g }, (r.closeStart c).2) := by
  cases c with
  | taskListItem b => simp only [Renderer.closeStart, block_swap]
  | _ => rfl

theorem openTag_swap (r : Renderer) (g : Footnotes) (c : Container) :
    ({ r with footnotes := g }).openTag c =
      (r.openTag c).map (fun x => ({ x.1 with footnotes := g }, x.2)) := by
  cases c with
  | tableCell a h => cases h <;> rfl
  | _ => rfl

theorem closeTag_swap (r : Renderer) (g : Footnotes) (c : Container) (hn : g.number = r.footnotes.number) :
    ({ r with footnotes := g }).closeTag c =
      (r.closeTag c).map (fun x => ({ x.1 with footnotes := g }, x.2)) := by
  cases c with
  | tableCell a h => cases h <;> rfl
  | paragraph =>
    simp only [Renderer.closeTag, Footnotes.inEpilogue, hn]
    split <;> rfl
  | image u t =>
    simp only [Renderer.closeTag, csub]
    by_cases h : 1 ≤ r.imgAltText
    · simp only [if_pos h]; rfl
    · simp only [if_neg h]; rfl
  | _ => rfl

theorem start_swap (r : Renderer) (g : Footnotes) (c : Container) (a : Attr.Attributes) :
    ({ r with footnotes := g }).start c a =
      (r.start c a).map (fun x => ({ x.1 with footnotes := g }, x.2)) := by
  unfold Renderer.start
  rw [startBlock_swap]
  simp only
  split
  · rfl
  · rw [openTag_swap]
    cases (r.startBlock c).1.openTag c with
    | error e => rfl
    | ok x =>
      obtain ⟨q, o⟩ := x
      cases o with
      | none => rfl
      | some o2 =>
        simp only [Except.map, Renderer.tagRest, closeStart_swap]

theorem close_swap (r : Renderer) (g : Footnotes) (c : Container) (hn : g.number = r.footnotes.number) :
    ({ r with footnotes := g }).close c =
      (r.close c).map (fun x => ({ x.1 with footnotes := g }, x.2)) := by
  unfold Renderer.close
  rw [closeBlock_swap]
  simp only
  split
  · rfl
  · have hn' : g.number = (r.closeBlock c).1.footnotes.number := by
      obtain ⟨d, hd⟩ := closeBlock_fst r c; rw [hd]; exact hn
    rw [closeTag_swap _ _ _ hn']
    cases (r.closeBlock c).1.closeTag c with
    | error e => rfl
    | ok x =>
      obtain ⟨q, o⟩ := x
      cases o with
      | none => rfl
      | some o2 => rfl

theorem core_swap {r q : Renderer} {g : Footnotes} {e : Event} {o : Out}
    (hr : g.references = r.footnotes.references) (hn : g.number = r.footnotes.number)
    (h : r.core e = .ok (q, o)) :
    ({ r with footnotes := g }).core e =
      .ok ({ q with footnotes := { g with references := q.footnotes.references } }, o) := by
  have hf := (core_footnotes h).1
  have hg : { g with references := r.footnotes.references } = g := by rw [← hr]
  have hnr : (∀ l, e ≠ .footnoteReference l) → ({ g with references := q.footnotes.references } : Footnotes) = g := by
    intro hne
    have : footAfter r.footnotes e = r.footnotes := by
      cases e <;> first | rfl | exact absurd rfl (hne _)
    rw [hf, this]; exact hg
  cases e with
  | start c a =>
    simp only [Renderer.core] at h ⊢
    rw [hnr (by simp), start_swap, h]; rfl
  | «end» c =>
    simp only [Renderer.core] at h ⊢
    rw [hnr (by simp), close_swap _ _ _ hn, h]; rfl
  | footnoteReference l =>
    simp only [Renderer.core, Except.ok.injEq, Prod.mk.injEq] at h ⊢
    obtain ⟨rfl, rfl⟩ := h
    simp only [Renderer.footnoteReference, Footnotes.reference, hr]
    split
    · simp [← hr]
    · simp
  | hardbreak =>
    rw [hnr (by simp)]
    simp only [Renderer.core, Except.ok.injEq, Prod.mk.injEq] at h ⊢
    obtain ⟨rfl, rfl⟩ := h
    simp [block_swap]
  | thematicBreak a =>
    rw [hnr (by simp)]
    simp only [Renderer.core, Except.ok.injEq, Prod.mk.injEq] at h ⊢
    obtain ⟨rfl, rfl⟩ := h
    simp [block_swap]
  | _ =>
    rw [hnr (by simp)]
    simp only [Renderer.core, Except.ok.injEq, Prod.mk.injEq] at h ⊢
    obtain ⟨rfl, rfl⟩ := h
    exact ⟨rfl, rfl⟩

/-! ## Twins -/

/-- Renderers that differ only in the texts put aside for footnotes. -/
structure Twin (r r' : Renderer) : Prop where
  eq : r' = { r with footnotes := r'.footnotes }
  refs : r'.footnotes.references = r.footnotes.references
  num : r'.footnotes.number = r.footnotes.number
  opn : eraseCache r'.footnotes.open_ = eraseCache r.footnotes.open_
  evs : eraseCache r'.footnotes.events = eraseCache r.footnotes.events

theorem Twin.refl (r : Renderer) : Twin r r := ⟨rfl, rfl, rfl, rfl, rfl⟩

theorem Twin.open_nil {r r' : Renderer} (h : Twin r r') (ho : r.footnotes.open_ = []) :
    r'.footnotes.open_ = [] := by
  have := h.opn
  rw [ho] at this
  simpa [eraseCache] using this

theorem step_swap {r r' q : Renderer} {e : Event} {o : Out} (ht : Twin r r')
    (ho : r.footnotes.open_ = []) (hn : NoFoot e) (h : r.step e = .ok (q, o)) :
    ∃ q', r'.step e = .ok (q', o) ∧ Twin q q' := by
  have ho' := ht.open_nil ho
  have hi : r'.ignore = r.ignore := by rw [ht.eq]
  unfold Renderer.step at h ⊢
  rcases filter_cases r e with ⟨l, a, rfl, _⟩ | ⟨l, l', evs, rest, rfl, _, _⟩ | ⟨l', evs, rest, _, h', _⟩ | ⟨_, _, hf⟩
  · exact absurd rfl (hn.1 _ _)
  · exact absurd rfl (hn.2 _)
  · rw [ho] at h'; simp at h'
  · rcases filter_cases r' e with ⟨l, a, rfl, _⟩ | ⟨l, l', evs, rest, rfl, _, _⟩ | ⟨l', evs, rest, _, h', _⟩ | ⟨_, _, hf'⟩
    · exact absurd rfl (hn.1 _ _)
    · exact absurd rfl (hn.2 _)
    · rw [ho'] at h'; simp at h'
    · have hig : ∀ b, Twin { r with ignore := b } { r' with ignore := b } := by
        intro b
        refine ⟨?_, ht.refs, ht.num, ht.opn, ht.evs⟩
        have := ht.eq
        rw [this]
      rcases hf with ⟨l, a, rfl, hf⟩ | ⟨l, rfl, hf⟩ | ⟨h1, h2, hf⟩
      · rcases hf' with ⟨l, a, _, hf'⟩ | ⟨l, h, _⟩ | ⟨h, _, _⟩
        · rw [hf] at h
          rw [hf']
          simp only [Except.ok.injEq, Prod.mk.injEq] at h
          obtain ⟨rfl, rfl⟩ := h
          exact ⟨_, rfl, hig _⟩
        · simp at h
        · exact absurd rfl (h _ _)
      · rcases hf' with ⟨l, a, h, _⟩ | ⟨l, _, hf'⟩ | ⟨_, h, _⟩
        · simp at h
        · rw [hf] at h
          rw [hf']
          simp only [Except.ok.injEq, Prod.mk.injEq] at h
          obtain ⟨rfl, rfl⟩ := h
          exact ⟨_, rfl, hig _⟩
        · exact absurd rfl (h _)
      · rcases hf' with ⟨l, a, h, _⟩ | ⟨l, h, hf'⟩ | ⟨_, _, hf'⟩
        · exact absurd h (h1 _ _)
        · exact absurd h (h2 _)
        · rw [hf] at h
          rw [hf', hi]
          cases hig : r.ignore
          · rw [hig] at h
            simp only [Bool.false_eq_true, if_false] at h ⊢
            have hc := core_footnotes h
            have hfa := footAfter_work r.footnotes e
            have hnum : (footAfter r.footnotes e).number = r.footnotes.number := by
              unfold footAfter Footnotes.reference
              split
              · split <;> rfl
              · rfl
            refine ⟨_, by rw [ht.eq]; exact core_swap ht.refs ht.num h, ?_⟩
            refine ⟨rfl, rfl, ?_, ?_, ?_⟩
            · simp only [hc.1, hnum]; exact ht.num
            · simp only [hc.1, hfa.2.1]; exact ht.opn
            · simp only [hc.1, hfa.2.2]; exact ht.evs
          · rw [hig] at h
            simp only [if_true, Except.ok.injEq, Prod.mk.injEq] at h ⊢
            obtain ⟨rfl, rfl⟩ := h
            exact ⟨r', ⟨rfl, rfl⟩, ht⟩

/-- Footnotes state that a rendered event does not touch. -/
def Kept (r q : Renderer) : Prop :=
  q.footnotes.events = r.footnotes.events ∧ q.footnotes.number = r.footnotes.number

theorem step_kept {r q : Renderer} {e : Event} {o : Out} (ho : r.footnotes.open_ = []) (hn : NoFoot e)
    (h : r.step e = .ok (q, o)) : Kept r q := by
  unfold Renderer.step at h
  rcases filter_cases r e with ⟨l, a, rfl, _⟩ | ⟨l, l', evs, rest, rfl, _, _⟩ | ⟨l', evs, rest, _, h', _⟩ | ⟨_, _, hf⟩
  · exact absurd rfl (hn.1 _ _)
  · exact absurd rfl (hn.2 _)
  · rw [ho] at h'; simp at h'
  · have hcore : ∀ {q o}, r.core e = .ok (q, o) → Kept r q := by
      intro q o h
      have hc := core_footnotes h
      have hfa := footAfter_work r.footnotes e
      have hnum : (footAfter r.footnotes e).number = r.footnotes.number := by
        unfold footAfter Footnotes.reference
        split
        · split <;> rfl
        · rfl
      exact ⟨by rw [hc.1, hfa.2.2], by rw [hc.1, hnum]⟩
    rcases hf with ⟨l, a, rfl, hf⟩ | ⟨l, rfl, hf⟩ | ⟨h1, h2, hf⟩
    · rw [hf] at h; simp only [Except.ok.injEq, Prod.mk.injEq] at h; rw [← h.1]; exact ⟨rfl, rfl⟩
    · rw [hf] at h; simp only [Except.ok.injEq, Prod.mk.injEq] at h; rw [← h.1]; exact ⟨rfl, rfl⟩
    · rw [hf] at h
      cases hig : r.ignore
      · rw [hig] at h; exact hcore h
      · rw [hig] at h; simp only [if_true, Except.ok.injEq, Prod.mk.injEq] at h; rw [← h.1]; exact ⟨rfl, rfl⟩

/-- One event on both sides. -/
theorem step_twin {st st' : List Container} {r r' : Renderer} {e e' : Event} {m : Mode} (h : Rel st r m)
    (ht : Twin r r') (he : eraseText e = eraseText e') (hn : NoFoot e) (hne : nest1 st e = some st')
    (hs : SafeEvent e) (hst : st ≠ []) :
    ∃ q q' o o' m', r.step e = .ok (q, o) ∧ r'.step e' = .ok (q', o') ∧ Twin q q' ∧ Rel st' q m' ∧ Kept r q ∧
      ∀ rest, Run2 m (htmlStack (live st) ++ rest) o o' m' (pending r e ++ htmlStack (live st') ++ rest) := by
  -- both sides do the same
  have hsame : StepOk st st' r e m → e' = e → ∃ q q' o o' m', r.step e = .ok (q, o) ∧ r'.step e' = .ok (q', o') ∧
      Twin q q' ∧ Rel st' q m' ∧ Kept r q ∧
      ∀ rest, Run2 m (htmlStack (live st) ++ rest) o o' m' (pending r e ++ htmlStack (live st') ++ rest) := by
    rintro ⟨q, o, m', h1, h2, h3⟩ rfl
    obtain ⟨q', h4, h5⟩ := step_swap ht h.opn hn h1
    exact ⟨q, q', o, o, m', h1, h4, h5, h2, step_kept h.opn hn h1, h3⟩
  cases hd : dead st with
  | true =>
    rcases eraseText_cases he with ⟨s, s', rfl, rfl⟩ | ⟨_, rfl⟩
    · -- text in a link definition
      obtain ⟨q, o, m', h1, h2, h3⟩ := step_dead h hd hn hne
      simp only [nest1, Option.some.injEq] at hne
      subst hne
      have hig : r.ignore = true := by rw [h.ign, hd]
      have hig' : r'.ignore = true := by rw [ht.eq]; exact hig
      have e1 : r.step (.str s) = .ok (r, []) := by
        simp [Renderer.step, Renderer.filter, h.opn, hig]
      have e2 : r'.step (.str s') = .ok (r', []) := by
        simp [Renderer.step, Renderer.filter, ht.open_nil h.opn, hig']
      refine ⟨r, r', [], [], m, e1, e2, ht, h, ⟨rfl, rfl⟩, fun rest => ?_⟩
      rw [pending_none (by simp)]
      exact Run2.nil _ _
    · exact hsame (step_dead h hd hn hne) rfl
  | false =>
    rcases eraseText_cases he with ⟨s, s', rfl, rfl⟩ | ⟨hns, rfl⟩
    · simp only [nest1, Option.some.injEq] at hne
      subst hne
      have hraw : r'.raw = r.raw := by rw [ht.eq]
      have himg : r'.imgAltText = r.imgAltText := by rw [ht.eq]
      obtain ⟨e1, hrun⟩ := step_str (r' := r') h hd s s' hraw himg
      have e2 : r'.step (.str s') = .ok ({ r' with firstLine := false }, r'.str s') := by
        have hig : r'.ignore = false := by rw [ht.eq]; rw [h.ign, hd]
        rw [step_core (ht.open_nil h.opn) hig ⟨by simp, by simp⟩ (by simp) (by simp)]; rfl
      refine ⟨_, _, _, _, m, e1, e2, ?_, h.mono h.opn rfl rfl rfl rfl rfl, ⟨rfl, rfl⟩, fun rest => ?_⟩
      · refine ⟨?_, ht.refs, ht.num, ht.opn, ht.evs⟩
        have := ht.eq
        rw [this]
      · rw [pending_none (by simp)]
        exact hrun _
    · refine hsame ?_ rfl
      cases e' with
      | start c a =>
        simp only [nest1] at hne
        split at hne
        · simp at hne
        · rename_i hdoc
          split at hne
          · rename_i hpl
            simp only [Option.some.injEq] at hne
            subst hne
            exact step_start h hd hst hdoc (fun l hl => hn.1 l a (by rw [hl])) hpl hs.1 hs.2
          · simp at hne
      | «end» c =>
        cases st with
        | nil => exact absurd rfl hst
        | cons d st =>
          simp only [nest1] at hne
          split at hne
          · rename_i hcd
            obtain ⟨rfl, hdoc⟩ := hcd
            simp only [Option.some.injEq] at hne
            subst hne
            exact step_end h hd hdoc (fun l hl => hn.2 l (by rw [hl]))
          · simp at hne
      | str s => exact absurd rfl (hns s)
      | _ => exact step_other h hd hs hne (by simp) (by simp) (by simp)

end Jotdown.Html
