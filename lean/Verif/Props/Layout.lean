import Verif.Spec.Layout
import Verif.Proofs.HtmlFuel
/-! # Property C16: indentation only adds layout whitespace -/
namespace Jotdown.Html
open Jotdown

/-- Both computations panic in the same way, or both succeed with results related by `Q`. -/
def BothOk {α β : Type} (Q : α → β → Prop) (x : R α) (y : R β) : Prop :=
  match x, y with
  | .ok a, .ok b => Q a b
  | .error e, .error e' => e = e'
  | _, _ => False

theorem BothOk.bind {α β α' β' : Type} {P : α → β → Prop} {Q : α' → β' → Prop} {x : R α} {y : R β}
    {f : α → R α'} {g : β → R β'} (h : BothOk P x y) (hf : ∀ a b, P a b → BothOk Q (f a) (g b)) :
    BothOk Q (x >>= f) (y >>= g) := by
  cases x <;> cases y
  · exact h
  · exact h.elim
  · exact h.elim
  · exact hf _ _ h

theorem BothOk.mono {α β : Type} {P Q : α → β → Prop} {x : R α} {y : R β}
    (h : BothOk P x y) (hf : ∀ a b, P a b → Q a b) : BothOk Q x y := by
  cases x <;> cases y
  · exact h
  · exact h.elim
  · exact h.elim
  · exact hf _ _ h

theorem InsertedLayout.append {ind a b c d : Bytes} (h : InsertedLayout ind a b)
    (h' : InsertedLayout ind c d) : InsertedLayout ind (a ++ c) (b ++ d) := by
  induction h with
  | nil => exact h'
  | keep c _ ih => exact .keep c ih
  | newline _ ih => exact .newline ih
  | indent _ ih => rw [List.append_assoc]; exact .indent ih

theorem InsertedLayout.refl (ind a : Bytes) : InsertedLayout ind a a := by
  induction a with
  | nil => exact .nil
  | cons c a ih => exact .keep c ih

/-- The same for lists of writes. -/
def Lay (ind : Bytes) (o o' : Out) : Prop := InsertedLayout ind o.flatten o'.flatten

theorem Lay.append {ind : Bytes} {a b c d : Out} (h : Lay ind a b) (h' : Lay ind c d) :
    Lay ind (a ++ c) (b ++ d) := by
  unfold Lay; rw [List.flatten_append, List.flatten_append]; exact InsertedLayout.append h h'

theorem Lay.refl (ind : Bytes) (o : Out) : Lay ind o o := InsertedLayout.refl _ _

/-- Only the layout state differs. -/
def Same (i : Indentation) (r r' : Renderer) : Prop :=
  r.indent = none ∧ r'.indent = some i ∧ r'.raw = r.raw ∧ r'.imgAltText = r.imgAltText ∧
  r'.listTightness = r.listTightness ∧ r'.firstLine = r.firstLine ∧ r'.ignore = r.ignore ∧
  r'.footnotes = r.footnotes

theorem Same.firstLine {i : Indentation} {r r' : Renderer} (h : Same i r r') (b : Bool) :
    Same i { r with firstLine := b } { r' with firstLine := b } := by
  obtain ⟨h1, h2, h3, h4, h5, h6, h7, h8⟩ := h
  exact ⟨h1, h2, h3, h4, h5, rfl, h7, h8⟩

/-- Result of a step. -/
def SO (i : Indentation) (x y : Renderer × Out) : Prop := Same i x.1 y.1 ∧ Lay i.string x.2 y.2

theorem indents_lay (ind : Bytes) (n : Nat) : Lay ind [] (List.replicate n ind) := by
  induction n with
  | zero => exact Lay.refl _ _
  | succ n ih =>
    rw [List.replicate_succ]
    unfold Lay at *
    rw [List.flatten_cons]
    exact .indent ih

theorem indentOut_lay {i : Indentation} {r r' : Renderer} (h : Same i r r') :
    Lay i.string r.indentOut r'.indentOut := by
  unfold Renderer.indentOut
  rw [h.1, h.2.1]
  simp only
  split
  · exact Lay.refl _ _
  · exact indents_lay _ _

theorem block_so {i : Indentation} {r r' : Renderer} (h : Same i r r') (c : Int) :
    SO i (r.block c) (r'.block c) := by
  have h1 : r.block c = (r, []) := by unfold Renderer.block; rw [h.1]
  rw [h1]
  constructor
  · obtain ⟨d, hd⟩ := block_fst r' c
    rw [hd]
    obtain ⟨h1, h2, h3, h4, h5, h6, h7, h8⟩ := h
    exact ⟨h1, h2, h3, h4, h5, h6, h7, h8⟩
  · unfold Renderer.block
    rw [h.2.1]
    simp only
    have hnl : Lay i.string [] (if r'.firstLine then [] else [b! "\n"]) := by
      split
      · exact Lay.refl _ _
      · exact .newline .nil
    have hind : ∀ (d : Nat) (q : Renderer), q.indent = some i → Lay i.string [] q.indentOut := by
      intro d q hq
      unfold Renderer.indentOut
      rw [hq]; simp only
      split
      · exact Lay.refl _ _
      · exact indents_lay _ _
    have := hnl.append (hind 0 (if c < 0 then { r' with depth := nextDepth r'.depth c } else r')
      (by split <;> exact h.2.1))
    rw [h.2.1] at this
    exact this

theorem startBlock_so {i : Indentation} {r r' : Renderer} (h : Same i r r') (c : Container) :
    SO i (r.startBlock c) (r'.startBlock c) := by
  unfold Renderer.startBlock
  split
  · exact block_so h _
  · exact ⟨h, Lay.refl _ _⟩

theorem closeBlock_so {i : Indentation} {r r' : Renderer} (h : Same i r r') (c : Container) :
    SO i (r.closeBlock c) (r'.closeBlock c) := by
  unfold Renderer.closeBlock
  split
  · exact block_so h _
  · exact ⟨h, Lay.refl _ _⟩

theorem openTag_so {i : Indentation} {r r' : Renderer} (h : Same i r r') (c : Container) :
    BothOk (fun x y => Same i x.1 y.1 ∧ x.2 = y.2) (r.openTag c) (r'.openTag c) := by
  obtain ⟨h1, h2, h3, h4, h5, h6, h7, h8⟩ := h
  cases c with
  | tableCell a hd => cases hd <;> exact ⟨⟨h1, h2, h3, h4, h5, h6, h7, h8⟩, rfl⟩
  | footnote l => exact rfl
  | list k t =>
    refine ⟨⟨h1, h2, h3, h4, ?_, h6, h7, h8⟩, rfl⟩
    simp [h5]
  | paragraph =>
    refine ⟨⟨h1, h2, h3, h4, h5, h6, h7, h8⟩, ?_⟩
    simp [h5]
  | image u t =>
    refine ⟨⟨h1, h2, h3, ?_, h5, h6, h7, h8⟩, ?_⟩ <;> simp [h4]
  | rawBlock f => exact ⟨⟨h1, h2, rfl, h4, h5, h6, h7, h8⟩, rfl⟩
  | rawInline f => exact ⟨⟨h1, h2, rfl, h4, h5, h6, h7, h8⟩, rfl⟩
  | _ => exact ⟨⟨h1, h2, h3, h4, h5, h6, h7, h8⟩, rfl⟩

theorem closeTag_so {i : Indentation} {r r' : Renderer} (h : Same i r r') (c : Container) :
    BothOk (fun x y => Same i x.1 y.1 ∧ x.2 = y.2) (r.closeTag c) (r'.closeTag c) := by
  obtain ⟨h1, h2, h3, h4, h5, h6, h7, h8⟩ := h
  cases c with
  | tableCell a hd => cases hd <;> exact ⟨⟨h1, h2, h3, h4, h5, h6, h7, h8⟩, rfl⟩
  | footnote l => exact rfl
  | document => exact rfl
  | linkDefinition l => exact rfl
  | list k t =>
    refine ⟨⟨h1, h2, h3, h4, ?_, h6, h7, h8⟩, rfl⟩
    simp [h5]
  | paragraph =>
    unfold Renderer.closeTag
    simp only [h5, h8]
    split
    · exact ⟨⟨h1, h2, h3, h4, h5, h6, h7, h8⟩, rfl⟩
    · exact ⟨⟨h1, h2, h3, h4, h5, h6, h7, h8⟩, rfl⟩
  | image u t =>
    unfold Renderer.closeTag
    simp only [h4]
    refine BothOk.bind (P := fun a b => a = b) ?_ ?_
    · unfold csub; split <;> exact rfl
    · rintro a _ rfl
      exact ⟨⟨h1, h2, h3, rfl, h5, h6, h7, h8⟩, rfl⟩
  | rawBlock f => exact ⟨⟨h1, h2, rfl, h4, h5, h6, h7, h8⟩, rfl⟩
  | rawInline f => exact ⟨⟨h1, h2, rfl, h4, h5, h6, h7, h8⟩, rfl⟩
  | _ => exact ⟨⟨h1, h2, h3, h4, h5, h6, h7, h8⟩, rfl⟩

theorem closeStart_so {i : Indentation} {r r' : Renderer} (h : Same i r r') (c : Container) :
    SO i (r.closeStart c) (r'.closeStart c) := by
  cases c with
  | image u t =>
    unfold Renderer.closeStart
    simp only [h.2.2.2.1]
    exact ⟨h, Lay.refl _ _⟩
  | taskListItem b =>
    have := block_so h 0
    exact ⟨this.1, ((Lay.refl _ [b! ">"]).append this.2).append (Lay.refl _ _)⟩
  | _ => exact ⟨h, Lay.refl _ _⟩

theorem start_so {i : Indentation} {r r' : Renderer} (h : Same i r r') (c : Container)
    (a : Attr.Attributes) : BothOk (SO i) (r.start c a) (r'.start c a) := by
  have hb := startBlock_so h c
  unfold Renderer.start
  rw [hb.1.2.2.2.1]
  refine Lex.ite_intro (P := fun x => BothOk (SO i) x _) (fun hc => ?_) (fun hc => ?_)
  · rw [if_pos hc]; exact hb
  · rw [if_neg hc]
    have ht := openTag_so hb.1 c
    revert ht
    cases h1 : (r.startBlock c).1.openTag c <;> cases h2 : (r'.startBlock c).1.openTag c <;> intro ht
    · exact ht
    · exact ht.elim
    · exact ht.elim
    · rename_i x y
      obtain ⟨x1, x2⟩ := x
      obtain ⟨y1, y2⟩ := y
      obtain ⟨ht1, ht2⟩ := ht
      simp only at ht1 ht2
      subst ht2
      cases x2 with
      | none => exact ⟨ht1, hb.2⟩
      | some o2 =>
        have hs := closeStart_so ht1 c
        exact ⟨hs.1.firstLine _, hb.2.append ((Lay.refl _ _).append hs.2)⟩

theorem close_so {i : Indentation} {r r' : Renderer} (h : Same i r r') (c : Container) :
    BothOk (SO i) (r.close c) (r'.close c) := by
  have hb := closeBlock_so h c
  unfold Renderer.close
  rw [hb.1.2.2.2.1]
  refine Lex.ite_intro (P := fun x => BothOk (SO i) x _) (fun hc => ?_) (fun hc => ?_)
  · rw [if_pos hc]; exact hb
  · rw [if_neg hc]
    have ht := closeTag_so hb.1 c
    revert ht
    cases h1 : (r.closeBlock c).1.closeTag c <;> cases h2 : (r'.closeBlock c).1.closeTag c <;> intro ht
    · exact ht
    · exact ht.elim
    · exact ht.elim
    · rename_i x y
      obtain ⟨x1, x2⟩ := x
      obtain ⟨y1, y2⟩ := y
      obtain ⟨ht1, ht2⟩ := ht
      simp only at ht1 ht2
      subst ht2
      cases x2 with
      | none => exact ⟨ht1, hb.2⟩
      | some o2 => exact ⟨ht1.firstLine _, hb.2.append (Lay.refl _ _)⟩

theorem core_so {i : Indentation} {r r' : Renderer} (h : Same i r r') (e : Event) :
    BothOk (SO i) (r.core e) (r'.core e) := by
  have hb := block_so h 0
  cases e with
  | start c a => exact start_so h c a
  | «end» c => exact close_so h c
  | str s =>
    refine ⟨h.firstLine _, ?_⟩
    simp only [Renderer.str, h.2.2.1, h.2.2.2.1]
    exact Lay.refl _ _
  | footnoteReference l =>
    obtain ⟨h1, h2, h3, h4, h5, h6, h7, h8⟩ := h
    simp only [Renderer.core, Renderer.footnoteReference, h8, h4]
    exact ⟨⟨h1, h2, h3, rfl, h5, rfl, h7, rfl⟩, Lay.refl _ _⟩
  | hardbreak => exact ⟨hb.1.firstLine _, (Lay.refl _ [b! "<br>"]).append hb.2⟩
  | softbreak => exact ⟨h.firstLine _, (Lay.refl _ [b! "\n"]).append (indentOut_lay h)⟩
  | thematicBreak a =>
    exact ⟨hb.1.firstLine _, ((hb.2.append (Lay.refl _ _)).append (Lay.refl _ _)).append (Lay.refl _ _)⟩
  | _ => exact ⟨h.firstLine _, Lay.refl _ _⟩

theorem filter_so {i : Indentation} {r r' : Renderer} (h : Same i r r') (e : Event) :
    (r.filter e = none ∧ r'.filter e = none) ∨
    ∃ q q', r.filter e = some q ∧ r'.filter e = some q' ∧ Same i q q' := by
  obtain ⟨h1, h2, h3, h4, h5, h6, h7, h8⟩ := h
  rcases filter_cases r e with ⟨l, a, rfl, hf⟩ | ⟨l, l', evs, rest, rfl, ho, hf⟩ | ⟨l', evs, rest, hn, ho, hf⟩ |
    ⟨ho, hn, hf⟩
  · exact .inr ⟨_, _, hf, rfl, h1, h2, h3, h4, h5, h6, h7, by simp [h8]⟩
  · refine .inr ⟨_, { r' with footnotes := { r'.footnotes with
          open_ := rest, events := mapInsert r'.footnotes.events l' evs } }, hf, ?_, h1, h2, h3, h4, h5, h6, h7, by simp [h8]⟩
    simp [Renderer.filter, h8, ho]
  · rcases filter_cases r' e with ⟨l, a, rfl, _⟩ | ⟨l, _, _, _, rfl, _, _⟩ | ⟨l2, evs2, rest2, _, ho2, hf2⟩ |
      ⟨ho2, _, _⟩
    · exact absurd rfl (hn.1 _ _)
    · exact absurd rfl (hn.2 _)
    · refine .inr ⟨_, _, hf, hf2, h1, h2, h3, h4, h5, h6, h7, ?_⟩
      rw [h8, ho] at ho2
      simp only [List.cons.injEq, Prod.mk.injEq] at ho2
      obtain ⟨⟨rfl, rfl⟩, rfl⟩ := ho2
      simp [h8]
    · rw [h8, ho] at ho2; simp at ho2
  · rcases filter_cases r' e with ⟨l, a, rfl, _⟩ | ⟨l, _, _, _, rfl, ho2, _⟩ | ⟨l2, evs2, rest2, _, ho2, hf2⟩ |
      ⟨ho2, _, hf2⟩
    · exact absurd rfl (hn _ _)
    · rw [h8, ho] at ho2; simp at ho2
    · rw [h8, ho] at ho2; simp at ho2
    · rcases hf with ⟨l, a, rfl, hf⟩ | ⟨l, rfl, hf⟩ | ⟨ha, hb, hf⟩
      · rcases hf2 with ⟨l, a, _, hf2⟩ | ⟨l, h, hf2⟩ | ⟨ha2, hb2, hf2⟩
        · exact .inr ⟨_, _, hf, hf2, h1, h2, h3, h4, h5, h6, rfl, h8⟩
        · simp at h
        · exact absurd rfl (ha2 _ _)
      · rcases hf2 with ⟨l, a, h, hf2⟩ | ⟨l, _, hf2⟩ | ⟨ha2, hb2, hf2⟩
        · simp at h
        · exact .inr ⟨_, _, hf, hf2, h1, h2, h3, h4, h5, h6, rfl, h8⟩
        · exact absurd rfl (hb2 _)
      · rcases hf2 with ⟨l, a, rfl, hf2⟩ | ⟨l, rfl, hf2⟩ | ⟨ha2, hb2, hf2⟩
        · exact absurd rfl (ha _ _)
        · exact absurd rfl (hb _)
        · rw [hf, hf2, h7]
          cases r.ignore
          · exact .inl ⟨rfl, rfl⟩
          · exact .inr ⟨_, _, rfl, rfl, h1, h2, h3, h4, h5, h6, h7, h8⟩

theorem beginNotes_so {i : Indentation} {r r' : Renderer} (h : Same i r r') :
    SO i r.beginNotes r'.beginNotes := by
  have h1 := block_so h 0
  have h2 := block_so h1.1 0
  have h3 := block_so h2.1 0
  exact ⟨h3.1, ((((h1.2.append (Lay.refl _ _)).append h2.2).append (Lay.refl _ _)).append h3.2).append (Lay.refl _ _)⟩

theorem endNotes_so {i : Indentation} {r r' : Renderer} (h : Same i r r') :
    SO i r.endNotes r'.endNotes := by
  have h1 := block_so h 0
  have h2 := block_so h1.1 0
  exact ⟨h2.1, ((h1.2.append (Lay.refl _ _)).append h2.2).append (Lay.refl _ _)⟩

theorem beginNote_so {i : Indentation} {r r' : Renderer} (h : Same i r r') (n : Nat) :
    SO i (r.beginNote n) (r'.beginNote n) := by
  have h1 := block_so h 0
  exact ⟨h1.1, h1.2.append (Lay.refl _ _)⟩

theorem endNote_so {i : Indentation} {r r' : Renderer} (h : Same i r r') (n : Nat) (u : Bool) :
    SO i (r.endNote n u) (r'.endNote n u) := by
  have h1 := block_so h 0
  cases u
  · have h2 := block_so h1.1 0
    exact ⟨h2.1, (((h1.2.append (Lay.refl _ _)).append (Lay.refl _ _)).append h2.2).append (Lay.refl _ _)⟩
  · exact ⟨h1.1, (((Lay.refl _ []).append (Lay.refl _ _)).append h1.2).append (Lay.refl _ _)⟩

theorem finalNewline_lay {i : Indentation} {r r' : Renderer} (h : Same i r r') :
    Lay i.string r.finalNewline r'.finalNewline := by
  simp only [Renderer.finalNewline, h.1, h.2.1]
  exact .newline .nil

theorem all_so (i : Indentation) (fuel : Nat) :
    (∀ r r' e, Same i r r' → BothOk (SO i) (Renderer.event fuel r e) (Renderer.event fuel r' e)) ∧
    (∀ r r', Same i r r' → BothOk (SO i) (Renderer.epilogue fuel r) (Renderer.epilogue fuel r')) ∧
    (∀ r r', Same i r r' → BothOk (SO i) (Renderer.notes fuel r) (Renderer.notes fuel r')) ∧
    (∀ r r' evs u, Same i r r' → BothOk
      (fun x y => Same i x.1 y.1 ∧ x.2.1 = y.2.1 ∧ Lay i.string x.2.2 y.2.2)
      (Renderer.note fuel r evs u) (Renderer.note fuel r' evs u)) := by
  induction fuel with
  | zero =>
    refine ⟨?_, ?_, ?_, ?_⟩ <;> intros
    · unfold Renderer.event; exact rfl
    · unfold Renderer.epilogue; exact rfl
    · unfold Renderer.notes; exact rfl
    · unfold Renderer.note; exact rfl
  | succ fuel ih =>
    obtain ⟨ihE, ihP, ihN, ihO⟩ := ih
    refine ⟨?_, ?_, ?_, ?_⟩
    · intro r r' e h
      unfold Renderer.event
      rcases filter_so h e with ⟨h1, h2⟩ | ⟨q, q', h1, h2, hq⟩
      · rw [h1, h2, h.2.2.2.1]
        simp only
        split
        · split
          · exact ⟨h, Lay.refl _ _⟩
          · exact ihP r r' h
        · exact core_so h e
      · rw [h1, h2]; exact ⟨hq, Lay.refl _ _⟩
    · intro r r' h
      unfold Renderer.epilogue
      rw [h.2.2.2.2.2.2.2]
      split
      · exact ⟨h, finalNewline_lay h⟩
      · have hb := beginNotes_so h
        refine BothOk.bind (ihN _ _ hb.1) ?_
        rintro x y ⟨hx, hl⟩
        have he := endNotes_so hx
        exact ⟨he.1, ((hb.2.append hl).append he.2).append (finalNewline_lay he.1)⟩
    · intro r r' h
      unfold Renderer.notes
      rw [h.2.2.2.2.2.2.2]
      split
      · exact ⟨h, Lay.refl _ _⟩
      · rename_i number evs f hn
        have h' : Same i { r with footnotes := f } { r' with footnotes := f } := by
          obtain ⟨h1, h2, h3, h4, h5, h6, h7, h8⟩ := h
          exact ⟨h1, h2, h3, h4, h5, h6, h7, rfl⟩
        have hb := beginNote_so h' number
        refine BothOk.bind (ihO _ _ (evs.getD []) false hb.1) ?_
        rintro x y ⟨hx, hu, hl⟩
        rw [hu]
        have he := endNote_so hx number y.2.1
        refine BothOk.bind (ihN _ _ he.1) ?_
        rintro x2 y2 ⟨hx2, hl2⟩
        exact ⟨hx2, ((hb.2.append hl).append he.2).append hl2⟩
    · intro r r' evs u h
      unfold Renderer.note
      split
      · exact ⟨h, rfl, Lay.refl _ _⟩
      · rename_i e es
        split
        · exact ihO r r' es u h
        · refine BothOk.bind (ihE r r' e h) ?_
          rintro x y ⟨hx, hl⟩
          rw [hx.2.2.2.2.1]
          refine BothOk.bind (ihO _ _ es _ hx) ?_
          rintro x2 y2 ⟨hx2, hu2, hl2⟩
          exact ⟨hx2, hu2, ((Lay.refl _ _).append hl).append hl2⟩

theorem pushEvents_so {i : Indentation} (es : List Event) {r r' : Renderer} (h : Same i r r') :
    BothOk (SO i) (r.pushEvents es) (r'.pushEvents es) := by
  induction es generalizing r r' with
  | nil => exact ⟨h, Lay.refl _ _⟩
  | cons e es ih =>
    unfold Renderer.pushEvents
    have hf : r'.fuel = r.fuel := by unfold Renderer.fuel; rw [h.2.2.2.2.2.2.2]
    refine BothOk.bind (P := SO i) ?_ ?_
    · unfold Renderer.pushEvent; rw [hf]; exact (all_so i _).1 r r' e h
    · rintro ⟨r1, o1⟩ ⟨r2, o2⟩ ⟨h1, h2⟩
      refine BothOk.bind (ih h1) ?_
      rintro ⟨r3, o3⟩ ⟨r4, o4⟩ ⟨h3, h4⟩
      exact ⟨h3, h2.append h4⟩

/-- **C16.** For every stream of events and every indentation, the minified and the indented renderer
either both panic, in the same way, or both succeed, and then the indented output is the minified
output with newlines and indentation strings inserted. -/
theorem C16_indentation_is_layout (i : Indentation) (es : List Event) :
    match Renderer.minified.output es, (Renderer.indented i).output es with
    | .ok a, .ok b => InsertedLayout i.string a b
    | .error p, .error p' => p = p'
    | _, _ => False := by
  have h : Same i Renderer.minified (Renderer.indented i) := ⟨rfl, rfl, rfl, rfl, rfl, rfl, rfl, rfl⟩
  have h1 := pushEvents_so es h
  unfold Renderer.output
  cases hx : Renderer.minified.pushEvents es <;> cases hy : (Renderer.indented i).pushEvents es <;>
    rw [hx, hy] at h1
  · exact h1
  · exact h1.elim
  · exact h1.elim
  · exact h1.2

/- A concrete case: a tight list in a blockquote. -/
def layoutExample : List Event :=
  [.start .document [], .start .blockquote [], .start .paragraph [], .str (b! "a"), .softbreak, .str (b! "b"),
   .end .paragraph, .end .blockquote, .end .document]

example : Renderer.minified.output layoutExample = .ok (b! "<blockquote><p>a\nb</p></blockquote>") ∧
    (Renderer.indented ⟨b! "\t", 0⟩).output layoutExample =
      .ok (b! "<blockquote>\n\t<p>a\n\tb</p>\n</blockquote>\n") := by decide +kernel

end Jotdown.Html
