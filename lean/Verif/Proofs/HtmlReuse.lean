import Verif.Proofs.HtmlEnd
/-! # Reusing a renderer

Without indentation, nothing depends on whether something has been written already. -/
namespace Jotdown.Html.Reuse
open Jotdown Jotdown.Html

/-- Renderers without indentation that differ at most in whether something has been written. -/
structure Sim (r r' : Renderer) : Prop where
  indent : r.indent = none
  eq : ∃ b, r' = { r with firstLine := b }

/-- The same result, up to that. -/
inductive Same {α : Type} : R (Renderer × α) → R (Renderer × α) → Prop
  | ok {r r' : Renderer} (h : Sim r r') (a : α) : Same (.ok (r, a)) (.ok (r', a))
  | error (e : Panic) : Same (.error e) (.error e)

theorem Same.bind {α β : Type} {x y : R (Renderer × α)} (h : Same x y) {f g : Renderer × α → R (Renderer × β)} (hf : ∀ r r' a, Sim r r' → Same (f (r, a)) (g (r', a))) : Same (x.bind f) (y.bind g) := by
  cases h with
  | ok h a => exact hf _ _ a h
  | error e => exact .error e

theorem Sim.mk' (d raw img lt b b' ig fn) : Sim ⟨none, d, raw, img, lt, b, ig, fn⟩ ⟨none, d, raw, img, lt, b', ig, fn⟩ := ⟨rfl, b', rfl⟩

theorem Sim.cases {P : Renderer → Renderer → Prop} {r r' : Renderer} (h : Sim r r') (hP : ∀ d raw img lt b b' ig fn, P ⟨none, d, raw, img, lt, b, ig, fn⟩ ⟨none, d, raw, img, lt, b', ig, fn⟩) : P r r' := by
  obtain ⟨h1, b, rfl⟩ := h
  cases r
  simp only at h1
  subst h1
  exact hP ..

theorem Sim.block {r r' : Renderer} (h : Sim r r') (c : Int) : r.block c = (r, []) ∧ r'.block c = (r', []) := by
  obtain ⟨h1, b, rfl⟩ := h
  simp [Renderer.block, h1]

theorem Sim.openTag {r r' : Renderer} (h : Sim r r') (c : Container) : Same (r.openTag c) (r'.openTag c) := by
  refine h.cases (P := fun r r' => Same (r.openTag c) (r'.openTag c)) ?_
  intro d raw img lt b b' ig fn
  cases c <;> first
    | exact .ok (.mk' ..) _
    | exact .error _
    | (rename_i a; cases a <;> exact .ok (.mk' ..) _)

theorem Sim.closeTag {r r' : Renderer} (h : Sim r r') (c : Container) : Same (r.closeTag c) (r'.closeTag c) := by
  refine h.cases (P := fun r r' => Same (r.closeTag c) (r'.closeTag c)) ?_
  intro d raw img lt b b' ig fn
  cases c <;> first
    | exact .ok (.mk' ..) _
    | exact .error _
    | (rename_i a; cases a <;> exact .ok (.mk' ..) _)
    | skip
  · simp only [Renderer.closeTag]
    split
    · exact .ok (.mk' ..) _
    · exact .ok (.mk' ..) _
  · simp only [Renderer.closeTag]
    cases csub img 1 with
    | error e => exact .error _
    | ok n => exact .ok (.mk' ..) _

theorem Sim.closeStart {r r' : Renderer} (h : Sim r r') (c : Container) : Sim (r.closeStart c).1 (r'.closeStart c).1 ∧ (r.closeStart c).2 = (r'.closeStart c).2 := by
  refine h.cases (P := fun r r' => Sim (r.closeStart c).1 (r'.closeStart c).1 ∧ (r.closeStart c).2 = (r'.closeStart c).2) ?_
  intro d raw img lt b b' ig fn
  cases c <;> exact ⟨.mk' .., rfl⟩

theorem Sim.written {r r' : Renderer} (h : Sim r r') : Sim { r with firstLine := false } { r' with firstLine := false } := by
  obtain ⟨h1, b, rfl⟩ := h
  exact ⟨h1, false, rfl⟩

theorem Sim.facts {r r' : Renderer} (h : Sim r r') : r'.indent = none ∧ r'.imgAltText = r.imgAltText ∧ r'.footnotes = r.footnotes ∧ r'.listTightness = r.listTightness ∧ r'.raw = r.raw ∧ r'.ignore = r.ignore := by
  obtain ⟨h1, b, rfl⟩ := h
  exact ⟨h1, rfl, rfl, rfl, rfl, rfl⟩

theorem Sim.start {r r' : Renderer} (h : Sim r r') (c : Container) (attrs : Attr.Attributes) : Same (r.start c attrs) (r'.start c attrs) := by
  have e1 : r.startBlock c = (r, []) := by unfold Renderer.startBlock; split <;> simp [(h.block _).1]
  have e2 : r'.startBlock c = (r', []) := by unfold Renderer.startBlock; split <;> simp [(h.block _).2]
  unfold Renderer.start
  rw [e1, e2, h.facts.2.1]
  split
  · exact .ok h _
  · have ho := h.openTag c
    revert ho
    generalize r.openTag c = x
    generalize r'.openTag c = y
    intro ho
    cases ho with
    | error e => exact .error e
    | ok hs o =>
      cases o with
      | none => exact .ok hs _
      | some o2 =>
        obtain ⟨g1, g2⟩ := hs.closeStart c
        simp only [Renderer.tagRest, g2]
        exact .ok g1.written _

theorem Sim.close {r r' : Renderer} (h : Sim r r') (c : Container) : Same (r.close c) (r'.close c) := by
  have e1 : r.closeBlock c = (r, []) := by unfold Renderer.closeBlock; split <;> simp [(h.block _).1]
  have e2 : r'.closeBlock c = (r', []) := by unfold Renderer.closeBlock; split <;> simp [(h.block _).2]
  unfold Renderer.close
  rw [e1, e2, h.facts.2.1]
  split
  · exact .ok h _
  · have ho := h.closeTag c
    revert ho
    generalize r.closeTag c = x
    generalize r'.closeTag c = y
    intro ho
    cases ho with
    | error e => exact .error e
    | ok hs o =>
      cases o with
      | none => exact .ok hs _
      | some o2 => exact .ok hs.written _

theorem Sim.core {r r' : Renderer} (h : Sim r r') (e : Event) : Same (r.core e) (r'.core e) := by
  by_cases hs : ∃ c a, e = .start c a
  · obtain ⟨c, a, rfl⟩ := hs
    exact h.start c a
  by_cases hc : ∃ c, e = .end c
  · obtain ⟨c, rfl⟩ := hc
    exact h.close c
  refine h.cases (P := fun r r' => Same (r.core e) (r'.core e)) ?_
  intro d raw img lt b b' ig fn
  cases e <;> first
    | exact .ok (.mk' ..) _
    | exact absurd ⟨_, _, rfl⟩ hs
    | exact absurd ⟨_, rfl⟩ hc

/-- The same filter. -/
inductive SameF : Option Renderer → Option Renderer → Prop
  | some {r r' : Renderer} (h : Sim r r') : SameF (.some r) (.some r')
  | none : SameF .none .none

theorem Sim.filter {r r' : Renderer} (h : Sim r r') (e : Event) : SameF (r.filter e) (r'.filter e) := by
  refine h.cases (P := fun r r' => SameF (r.filter e) (r'.filter e)) ?_
  intro d raw img lt b b' ig fn
  unfold Renderer.filter
  simp only
  split
  · exact .some (.mk' ..)
  · split
    · split <;> exact .some (.mk' ..)
    · split
      · exact .some (.mk' ..)
      · exact .some (.mk' ..)
      · split
        · exact .some (.mk' ..)
        · exact .none

theorem Sim.foot {r r' : Renderer} (h : Sim r r') (f : Footnotes) : Sim { r with footnotes := f } { r' with footnotes := f } := by
  obtain ⟨h1, b, rfl⟩ := h
  exact ⟨h1, b, rfl⟩

theorem Sim.beginNotes {r r' : Renderer} (h : Sim r r') : Sim r.beginNotes.1 r'.beginNotes.1 ∧ r.beginNotes.2 = r'.beginNotes.2 := by
  unfold Renderer.beginNotes
  simp only [(h.block _).1, (h.block _).2]
  exact ⟨h, trivial⟩

theorem Sim.endNotes {r r' : Renderer} (h : Sim r r') : Sim r.endNotes.1 r'.endNotes.1 ∧ r.endNotes.2 = r'.endNotes.2 := by
  unfold Renderer.endNotes
  simp only [(h.block _).1, (h.block _).2]
  exact ⟨h, trivial⟩

theorem Sim.beginNote {r r' : Renderer} (h : Sim r r') (n : Nat) : Sim (r.beginNote n).1 (r'.beginNote n).1 ∧ (r.beginNote n).2 = (r'.beginNote n).2 := by
  unfold Renderer.beginNote
  simp only [(h.block _).1, (h.block _).2]
  exact ⟨h, trivial⟩

theorem Sim.endNote {r r' : Renderer} (h : Sim r r') (n : Nat) (u : Bool) : Sim (r.endNote n u).1 (r'.endNote n u).1 ∧ (r.endNote n u).2 = (r'.endNote n u).2 := by
  unfold Renderer.endNote
  cases u <;> simp only [(h.block _).1, (h.block _).2, if_true, if_false, Bool.false_eq_true] <;> exact ⟨h, trivial⟩

theorem Sim.finalNewline {r r' : Renderer} (h : Sim r r') : r.finalNewline = r'.finalNewline := by
  unfold Renderer.finalNewline
  rw [h.indent, h.facts.1]

/-- All functions of the epilogue at once. -/
theorem sim_all (fuel : Nat) :
    (∀ r r' e, Sim r r' → Same (Renderer.event fuel r e) (Renderer.event fuel r' e))
    ∧ (∀ r r', Sim r r' → Same (Renderer.epilogue fuel r) (Renderer.epilogue fuel r'))
    ∧ (∀ r r', Sim r r' → Same (Renderer.notes fuel r) (Renderer.notes fuel r'))
    ∧ (∀ r r' evs u, Sim r r' → Same (Renderer.note fuel r evs u) (Renderer.note fuel r' evs u)) := by
  induction fuel with
  | zero =>
    refine ⟨?_, ?_, ?_, ?_⟩ <;> intros <;> simp only [Renderer.event, Renderer.epilogue, Renderer.notes, Renderer.note] <;> exact .error _
  | succ fuel ih =>
    obtain ⟨ih1, ih2, ih3, ih4⟩ := ih
    refine ⟨?_, ?_, ?_, ?_⟩
    · intro r r' e h
      unfold Renderer.event
      have hf := h.filter e
      revert hf
      generalize r.filter e = x
      generalize r'.filter e = y
      intro hf
      cases hf with
      | some hs => exact .ok hs _
      | none =>
        simp only [h.facts.2.1]
        split
        · split
          · exact .ok h _
          · exact ih2 _ _ h
        · exact h.core e
    · intro r r' h
      unfold Renderer.epilogue
      rw [h.facts.2.2.1, ← h.finalNewline]
      split
      · exact .ok h _
      · have hb := h.beginNotes
        refine (ih3 _ _ hb.1).bind ?_
        intro q q' o hq
        simp only [hb.2, hq.endNotes.2, hq.endNotes.1.finalNewline]
        exact .ok hq.endNotes.1 _
    · intro r r' h
      unfold Renderer.notes
      rw [h.facts.2.2.1]
      cases hn : r.footnotes.next with
      | none => exact .ok h _
      | some x =>
        obtain ⟨⟨n, evs⟩, f⟩ := x
        have hb := (h.foot f).beginNote n
        refine (ih4 _ _ _ _ hb.1).bind ?_
        rintro q q' ⟨u, o⟩ hq
        have he := hq.endNote n u
        refine (ih3 _ _ he.1).bind ?_
        intro p p' o2 hp
        simp only [hb.2, he.2]
        exact .ok hp _
    · intro r r' evs u h
      unfold Renderer.note
      cases evs with
      | nil => exact .ok h _
      | cons e es =>
        simp only
        split
        · exact ih4 _ _ _ _ h
        · refine (ih1 _ _ e h).bind ?_
          intro q q' o hq
          simp only [hq.facts.2.2.2.1]
          refine (ih4 _ _ _ _ hq).bind ?_
          rintro p p' ⟨u2, o2⟩ hp
          exact .ok hp _

theorem sim_events (es : List Event) : ∀ r r', Sim r r' → Same (r.pushEvents es) (r'.pushEvents es) := by
  induction es with
  | nil => intro r r' h; exact .ok h _
  | cons e es ih =>
    intro r r' h
    unfold Renderer.pushEvents Renderer.pushEvent
    have hf : r'.fuel = r.fuel := by unfold Renderer.fuel; rw [h.facts.2.2.1]
    rw [hf]
    refine ((sim_all r.fuel).1 _ _ e h).bind ?_
    intro q q' o hq
    refine (ih q q' hq).bind ?_
    intro p p' o2 hp
    exact .ok hp _

/-- The same output. -/
theorem sim_output {r r' : Renderer} (h : Sim r r') (es : List Event) : r.output es = r'.output es := by
  unfold Renderer.output
  have := sim_events es r r' h
  revert this
  generalize r.pushEvents es = x
  generalize r'.pushEvents es = y
  intro hs
  cases hs <;> rfl

/-- After a document without footnotes. -/
theorem document_sim (attrs : Attr.Attributes) (ns : List Node) (hn : nodesCovered ns = true) (hr : nodeRefs ns = []) (hd : nodeNotes ns = []) :
    ∃ q o, Renderer.minified.pushEvents (.start .document attrs :: (nodeEvents ns ++ [.end .document])) = .ok (q, o) ∧ Sim q Renderer.minified := by
  have h : Ready 0 (Renderer.new none) (startDepth none) false := by
    refine ⟨fun _ => rfl, ⟨rfl, rfl, by simp⟩, rfl, by simp [Renderer.new], fun _ => rfl⟩
  have s1 : (Renderer.new none).pushEvents [.start .document attrs] = .ok (Renderer.new none, []) := rfl
  have shows := nodes_first (Ls := []) (m := 0) ns (Renderer.new none) h hn (by simp)
  rw [hr] at shows
  obtain ⟨g, g1, g2, g3, o, e1, e2⟩ := shows (Renderer.new none).footnotes rfl rfl (List.prefix_refl _)
  simp only [List.foldl_nil] at g3
  have e1' : (Renderer.new none).pushEvents (nodeEvents ns) = .ok ({ Renderer.new none with firstLine := (Renderer.new none).firstLine && ns.all Node.hidden, footnotes := g }, o) := e1
  have hev : g.events = [] := by
    have hw := nodes_wf ns hn
    have hp := (push_foot _ (nodeEvents_noDoc ns hw) e1').1
    have hr := (footRun (nodeEvents ns) (Renderer.new none).footnotes (Renderer.new none).ignore).2.2.1
    rw [← hp] at hr
    have hN := notesOf_nodes ns hw [] []
    simp only [List.append_nil, notesOpen, notesOf, hd, noteEvents, List.map_nil] at hN
    have hN' : notesOf (Renderer.new none).footnotes.open_ (nodeEvents ns) = [] := hN
    rw [hN'] at hr
    exact hr
  have hg : g = {} := by
    cases g
    simp only at g1 g2 g3 hev
    subst g1 g2 hev
    have : (Renderer.new none).footnotes.references = [] := rfl
    rw [this] at g3
    subst g3
    rfl
  subst hg
  refine ⟨{ Renderer.new none with firstLine := (Renderer.new none).firstLine && ns.all Node.hidden }, o, ?_, rfl, true, rfl⟩
  · show (Renderer.new none).pushEvents ([.start .document attrs] ++ (nodeEvents ns ++ [.end .document])) = _
    rw [pushEvents_app, s1]
    simp only [bind, Except.bind, pushEvents_app]
    rw [e1']
    simp only [Except.bind, pure, Except.pure, List.nil_append]
    have : Renderer.pushEvents { Renderer.new none with firstLine := (Renderer.new none).firstLine && ns.all Node.hidden, footnotes := {} } [.end .document]
        = .ok ({ Renderer.new none with firstLine := (Renderer.new none).firstLine && ns.all Node.hidden }, []) := rfl
    rw [this]
    simp

end Jotdown.Html.Reuse
