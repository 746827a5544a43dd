import Verif.Model.Html
import Verif.Proofs.Base
/-! # Basic facts about the renderer: which fields each step changes -/
namespace Jotdown.Html
open Jotdown

/-- `block` changes only the depth. -/
theorem block_fst (r : Renderer) (c : Int) : ∃ d, (r.block c).1 = { r with depth := d } := by
  unfold Renderer.block
  split
  · exact ⟨r.depth, rfl⟩
  · simp only []
    by_cases h1 : c < 0
    · have h2 : ¬ (0 < c) := by omega
      simp only [if_pos h1, if_neg h2]
      exact ⟨_, rfl⟩
    · simp only [if_neg h1]
      by_cases h2 : 0 < c
      · simp only [if_pos h2]; exact ⟨_, rfl⟩
      · simp only [if_neg h2]; exact ⟨_, rfl⟩

theorem startBlock_fst (r : Renderer) (c : Container) : ∃ d, (r.startBlock c).1 = { r with depth := d } := by
  unfold Renderer.startBlock; split
  · exact block_fst _ _
  · exact ⟨r.depth, rfl⟩

theorem closeBlock_fst (r : Renderer) (c : Container) : ∃ d, (r.closeBlock c).1 = { r with depth := d } := by
  unfold Renderer.closeBlock; split
  · exact block_fst _ _
  · exact ⟨r.depth, rfl⟩

theorem closeStart_fst (r : Renderer) (c : Container) : ∃ d, (r.closeStart c).1 = { r with depth := d } := by
  unfold Renderer.closeStart
  split
  case h_5 => exact block_fst _ _
  all_goals exact ⟨r.depth, rfl⟩

theorem openTag_footnotes (r : Renderer) (c : Container) {r' : Renderer} {o : Option Out}
    (h : r.openTag c = .ok (r', o)) : r'.footnotes = r.footnotes ∧ r'.ignore = r.ignore ∧ r'.indent = r.indent := by
  unfold Renderer.openTag at h
  split at h <;> simp only [Except.ok.injEq, Prod.mk.injEq, reduceCtorEq] at h
  all_goals (rw [← h.1]; exact ⟨rfl, rfl, rfl⟩)

theorem closeTag_footnotes (r : Renderer) (c : Container) {r' : Renderer} {o : Option Out}
    (h : r.closeTag c = .ok (r', o)) : r'.footnotes = r.footnotes ∧ r'.ignore = r.ignore ∧ r'.indent = r.indent := by
  unfold Renderer.closeTag at h
  cases c with
  | paragraph =>
    simp only at h
    split at h <;> simp only [Except.ok.injEq, Prod.mk.injEq] at h <;> (rw [← h.1]; exact ⟨rfl, rfl, rfl⟩)
  | image =>
    obtain ⟨n, h1, h⟩ := bind_ok h
    simp only [pure, Except.pure, Except.ok.injEq, Prod.mk.injEq] at h
    rw [← h.1]; exact ⟨rfl, rfl, rfl⟩
  | tableCell a hd =>
    cases hd <;> simp only [Except.ok.injEq, Prod.mk.injEq] at h <;> (rw [← h.1]; exact ⟨rfl, rfl, rfl⟩)
  | _ =>
    simp only [Except.ok.injEq, Prod.mk.injEq, reduceCtorEq] at h
    try (rw [← h.1]; exact ⟨rfl, rfl, rfl⟩)

theorem start_footnotes {r r' : Renderer} {c : Container} {a : Attr.Attributes} {o : Out}
    (h : r.start c a = .ok (r', o)) : r'.footnotes = r.footnotes ∧ r'.ignore = r.ignore ∧ r'.indent = r.indent := by
  unfold Renderer.start at h
  obtain ⟨d, hd⟩ := startBlock_fst r c
  split at h
  · simp only [Except.ok.injEq] at h
    rw [h] at hd; simp only at hd; rw [hd]; exact ⟨rfl, rfl, rfl⟩
  · split at h
    · simp at h
    · rename_i r1 h1
      simp only [Except.ok.injEq, Prod.mk.injEq] at h
      rw [← h.1]
      have := openTag_footnotes _ _ h1
      rw [hd] at this; exact this
    · rename_i r1 o2 h1
      simp only [Except.ok.injEq, Prod.mk.injEq] at h
      rw [← h.1]
      obtain ⟨d', hd'⟩ := closeStart_fst r1 c
      rw [hd']
      have := openTag_footnotes _ _ h1
      rw [hd] at this; exact this

theorem close_footnotes {r r' : Renderer} {c : Container} {o : Out}
    (h : r.close c = .ok (r', o)) : r'.footnotes = r.footnotes ∧ r'.ignore = r.ignore ∧ r'.indent = r.indent := by
  unfold Renderer.close at h
  obtain ⟨d, hd⟩ := closeBlock_fst r c
  split at h
  · simp only [Except.ok.injEq] at h
    rw [h] at hd; simp only at hd; rw [hd]; exact ⟨rfl, rfl, rfl⟩
  · split at h
    · simp at h
    · rename_i r1 h1
      simp only [Except.ok.injEq, Prod.mk.injEq] at h
      rw [← h.1]
      have := closeTag_footnotes _ _ h1
      rw [hd] at this; exact this
    · rename_i r1 o2 h1
      simp only [Except.ok.injEq, Prod.mk.injEq] at h
      rw [← h.1]
      have := closeTag_footnotes _ _ h1
      rw [hd] at this; exact this

/-- How a directly rendered event changes the footnotes: only a reference does. -/
def footAfter (f : Footnotes) : Event → Footnotes
  | .footnoteReference l => (f.reference l).2
  | _ => f

theorem core_footnotes {r r' : Renderer} {e : Event} {o : Out} (h : r.core e = .ok (r', o)) :
    r'.footnotes = footAfter r.footnotes e ∧ r'.ignore = r.ignore ∧ r'.indent = r.indent := by
  unfold Renderer.core at h
  obtain ⟨d, hd⟩ := block_fst r 0
  cases e with
  | start c a => exact start_footnotes h
  | «end» c => exact close_footnotes h
  | footnoteReference l =>
    simp only [Except.ok.injEq, Prod.mk.injEq] at h; rw [← h.1]; exact ⟨rfl, rfl, rfl⟩
  | hardbreak => simp only [Except.ok.injEq, Prod.mk.injEq] at h; rw [← h.1, hd]; exact ⟨rfl, rfl, rfl⟩
  | thematicBreak a => simp only [Except.ok.injEq, Prod.mk.injEq] at h; rw [← h.1, hd]; exact ⟨rfl, rfl, rfl⟩
  | _ => simp only [Except.ok.injEq, Prod.mk.injEq] at h; rw [← h.1]; exact ⟨rfl, rfl, rfl⟩

theorem openTag_err {r : Renderer} {c : Container} {p : Panic} (h : r.openTag c = .error p) : p = .panic := by
  unfold Renderer.openTag at h
  split at h <;> simp at h; exact h.symm

theorem closeTag_err {r : Renderer} {c : Container} {p : Panic} (h : r.closeTag c = .error p) :
    p = .panic ∨ p = .overflow := by
  unfold Renderer.closeTag at h
  cases c with
  | paragraph => simp only at h; split at h <;> simp at h
  | image =>
    simp only [bind, Except.bind, csub] at h
    split at h
    · rename_i heq
      split at heq
      · simp at heq
      · simp at heq h; subst h; subst heq; exact .inr rfl
    · simp [pure, Except.pure] at h
  | tableCell a hd => cases hd <;> simp at h
  | _ => simp at h; try exact .inl h.symm

theorem core_err {r : Renderer} {e : Event} {p : Panic} (h : r.core e = .error p) :
    p = .panic ∨ p = .overflow := by
  unfold Renderer.core at h
  cases e <;> try (simp at h; done)
  · simp only at h
    unfold Renderer.start at h
    split at h
    · simp at h
    · split at h
      · rename_i h1; simp at h; subst h; exact .inl (openTag_err h1)
      all_goals simp at h
  · simp only at h
    unfold Renderer.close at h
    split at h
    · simp at h
    · split at h
      · rename_i h1; simp at h; subst h; exact closeTag_err h1
      all_goals simp at h

/-- An event that is neither the start nor the end of a footnote. -/
def NoFoot (e : Event) : Prop :=
  (∀ l a, e ≠ .start (.footnote l) a) ∧ ∀ l, e ≠ .end (.footnote l)

/-- Footnote events put aside never include starts or ends of footnotes. -/
def CacheOk (f : Footnotes) : Prop :=
  (∀ p ∈ f.open_, ∀ e ∈ p.2, NoFoot e) ∧ ∀ p ∈ f.events, ∀ e ∈ p.2, NoFoot e

theorem filter_cases (r : Renderer) (e : Event) :
    (∃ l a, e = .start (.footnote l) a ∧
      r.filter e = some { r with footnotes := { r.footnotes with open_ := (l, []) :: r.footnotes.open_ } }) ∨
    (∃ l l' evs rest, e = .end (.footnote l) ∧ r.footnotes.open_ = (l', evs) :: rest ∧
      r.filter e = some { r with footnotes := { r.footnotes with
          open_ := rest, events := mapInsert r.footnotes.events l' evs } }) ∨
    (∃ l' evs rest, NoFoot e ∧ r.footnotes.open_ = (l', evs) :: rest ∧
      r.filter e = some { r with footnotes := { r.footnotes with open_ := (l', evs ++ [e]) :: rest } }) ∨
    (r.footnotes.open_ = [] ∧ (∀ l a, e ≠ .start (.footnote l) a) ∧
      ((∃ l a, e = .start (.linkDefinition l) a ∧ r.filter e = some { r with ignore := true }) ∨
       (∃ l, e = .end (.linkDefinition l) ∧ r.filter e = some { r with ignore := false }) ∨
       ((∀ l a, e ≠ .start (.linkDefinition l) a) ∧ (∀ l, e ≠ .end (.linkDefinition l)) ∧
          r.filter e = if r.ignore then some r else none))) := by
  by_cases h1 : ∃ l a, e = .start (.footnote l) a
  · obtain ⟨l, a, rfl⟩ := h1
    exact .inl ⟨l, a, rfl, rfl⟩
  · have h1' : ∀ l a, e ≠ .start (.footnote l) a := fun l a h => h1 ⟨l, a, h⟩
    right
    cases ho : r.footnotes.open_ with
    | cons p rest =>
      obtain ⟨l', evs⟩ := p
      by_cases h2 : ∃ l, e = .end (.footnote l)
      · obtain ⟨l, rfl⟩ := h2
        refine .inl ⟨l, l', evs, rest, rfl, rfl, ?_⟩
        simp [Renderer.filter, ho]
      · have h2' : ∀ l, e ≠ .end (.footnote l) := fun l h => h2 ⟨l, h⟩
        refine .inr (.inl ⟨l', evs, rest, ⟨h1', h2'⟩, rfl, ?_⟩)
        unfold Renderer.filter
        split
        · exact absurd rfl (h1' _ _)
        · rw [ho]; simp only
    | nil =>
      refine .inr (.inr ⟨rfl, h1', ?_⟩)
      by_cases h2 : ∃ l a, e = .start (.linkDefinition l) a
      · obtain ⟨l, a, rfl⟩ := h2
        exact .inl ⟨l, a, rfl, by simp [Renderer.filter, ho]⟩
      · by_cases h3 : ∃ l, e = .end (.linkDefinition l)
        · obtain ⟨l, rfl⟩ := h3
          exact .inr (.inl ⟨l, rfl, by simp [Renderer.filter, ho]⟩)
        · have h2' : ∀ l a, e ≠ .start (.linkDefinition l) a := fun l a h => h2 ⟨l, a, h⟩
          have h3' : ∀ l, e ≠ .end (.linkDefinition l) := fun l h => h3 ⟨l, h⟩
          refine .inr (.inr ⟨h2', h3', ?_⟩)
          unfold Renderer.filter
          split
          · exact absurd rfl (h1' _ _)
          · rw [ho]; simp only

end Jotdown.Html
