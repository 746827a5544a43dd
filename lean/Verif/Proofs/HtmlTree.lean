import Verif.Spec.HtmlTree
import Verif.Props.Escape
import Verif.Props.Html
import Verif.Props.Writer
import Verif.Proofs.HtmlAhead
/-! # Rendering a tree -/
namespace Jotdown.Html
open Jotdown

/-- The end tag of a paragraph in a note is written when the next event comes. -/
def owed (u : Bool) : Bytes := if u then b! "</p>" else []

/-- The events take the renderer from state `r` to `q` and `out` is written: in the document (`m = 0`), or in note number `m`, where
the end tag of a paragraph may be owed. -/
def Does (m : Nat) (r : Renderer) (es : List Event) (q : Renderer) (out : Bytes) : Prop :=
  match m with
  | 0 => ∃ o, r.pushEvents es = .ok (q, o) ∧ o.flatten = out
  | _ + 1 => ∀ u, ∃ u' o, noteBody r es u = .ok (q, u', o) ∧ o.flatten ++ owed u' = owed u ++ out

theorem noteBody_step (r : Renderer) (e : Event) (es : List Event) (u : Bool) : noteBody r (e :: es) u =
    if e = .blankline ∨ e = .escape then noteBody r es u
    else (r.pushEvent e).bind (fun x => (noteBody x.1 es (decide (e = .end .paragraph ∧ x.1.listTightness.head? ≠ some true))).bind
      (fun y => .ok (y.1, y.2.1, (if u then [b! "</p>"] else []) ++ x.2 ++ y.2.2))) := rfl

theorem noteBody_append (a b : List Event) : ∀ (r : Renderer) (u : Bool), noteBody r (a ++ b) u =
    (noteBody r a u).bind (fun x => (noteBody x.1 b x.2.1).bind (fun y => .ok (y.1, y.2.1, x.2.2 ++ y.2.2))) := by
  induction a with
  | nil =>
    intro r u
    simp only [List.nil_append, noteBody, Except.bind]
    cases noteBody r b u with
    | error e => rfl
    | ok y => rfl
  | cons e a ih =>
    intro r u
    rw [List.cons_append, noteBody_step, noteBody_step]
    by_cases hb : e = .blankline ∨ e = .escape
    · rw [if_pos hb, if_pos hb]; exact ih r u
    · rw [if_neg hb, if_neg hb]
      simp only [Except.bind]
      cases r.pushEvent e with
      | error e => rfl
      | ok x =>
        simp only [ih]
        cases noteBody x.1 a (decide (e = .end .paragraph ∧ x.1.listTightness.head? ≠ some true)) with
        | error e => rfl
        | ok y =>
          simp only [Except.bind]
          cases noteBody y.1 b y.2.1 with
          | error e => rfl
          | ok z => simp only [List.append_assoc]

theorem Does.nil (m : Nat) (r : Renderer) : Does m r [] r [] := by
  cases m with
  | zero => exact ⟨[], rfl, rfl⟩
  | succ m => exact fun u => ⟨u, [], rfl, by simp⟩

theorem Does.append {m : Nat} {r q p : Renderer} {a b : List Event} {x y : Bytes} (h1 : Does m r a q x) (h2 : Does m q b p y) : Does m r (a ++ b) p (x ++ y) := by
  cases m with
  | zero =>
    obtain ⟨o1, e1, rfl⟩ := h1
    obtain ⟨o2, e2, rfl⟩ := h2
    refine ⟨o1 ++ o2, ?_, by simp⟩
    rw [pushEvents_app, e1]
    simp only [bind, Except.bind, e2, pure, Except.pure]
  | succ m =>
    intro u
    obtain ⟨u1, o1, e1, f1⟩ := h1 u
    obtain ⟨u2, o2, e2, f2⟩ := h2 u1
    refine ⟨u2, o1 ++ o2, ?_, ?_⟩
    · rw [noteBody_append, e1]; simp only [Except.bind, e2]
    · rw [List.flatten_append, List.append_assoc, f2, ← List.append_assoc, f1, List.append_assoc]

/-- One event. -/
theorem Does.step {m : Nat} {r q : Renderer} {e : Event} {o : Out} (hd : e ≠ .end .document) (hp : e = .end .paragraph → q.listTightness.head? = some true)
    (hb : m ≠ 0 → (e = .blankline ∨ e = .escape) → q = r ∧ o = []) (h : r.step e = .ok (q, o)) : Does m r [e] q o.flatten := by
  have hs : r.pushEvent e = .ok (q, o) := by rw [push_step _ _ hd, h]
  cases m with
  | zero => exact ⟨o, by simp [Renderer.pushEvents, hs, bind, Except.bind, pure, Except.pure], rfl⟩
  | succ m =>
    intro u
    by_cases hbl : e = .blankline ∨ e = .escape
    · obtain ⟨rfl, rfl⟩ := hb (Nat.succ_ne_zero _) hbl
      exact ⟨u, [], by unfold noteBody; rw [if_pos hbl]; rfl, by simp⟩
    · refine ⟨false, (if u then [b! "</p>"] else []) ++ o, ?_, ?_⟩
      · unfold noteBody
        rw [if_neg hbl, hs]
        simp only [bind, Except.bind, pure, Except.pure, noteBody, List.append_nil]
        have : decide (e = .end .paragraph ∧ q.listTightness.head? ≠ some true) = false := by
          rw [decide_eq_false_iff_not]; rintro ⟨h1, h2⟩; exact h2 (hp h1)
        rw [this]
      · cases u <;> simp [owed]

/-- The end of a paragraph. -/
theorem Does.endPara {m : Nat} {r q : Renderer} {o : Out} (hq : q.listTightness.head? ≠ some true) (h : r.step (.end .paragraph) = .ok (q, o))
    (ho : o.flatten = if m = 0 then b! "</p>" else []) : Does m r [.end .paragraph] q (b! "</p>") := by
  have hs : r.pushEvent (.end .paragraph) = .ok (q, o) := by rw [push_step _ _ (by simp), h]
  cases m with
  | zero => exact ⟨o, by simp [Renderer.pushEvents, hs, bind, Except.bind, pure, Except.pure], by rw [ho]; rfl⟩
  | succ m =>
    intro u
    refine ⟨true, (if u then [b! "</p>"] else []) ++ o, ?_, ?_⟩
    · unfold noteBody
      rw [if_neg (by simp), hs]
      simp only [bind, Except.bind, pure, Except.pure, noteBody, List.append_nil, true_and]
      rw [decide_eq_true hq]
    · rw [if_neg (Nat.succ_ne_zero _)] at ho
      rw [List.flatten_append, ho]
      cases u <;> simp [owed]

/-- With any footnotes known so far: the events take the renderer from state `r` to `q`, the labels `rs` are referenced, and `out` is
written, if `Ls` are the labels of all notes in the end. -/
def Shows (Ls : List Bytes) (m : Nat) (r : Renderer) (es : List Event) (q : Renderer) (rs : List Bytes) (out : Bytes) : Prop :=
  ∀ f : Footnotes, f.open_ = [] → f.number = m → rs.foldl addRef f.references <+: Ls →
    ∃ g : Footnotes, g.open_ = [] ∧ g.number = m ∧ g.references = rs.foldl addRef f.references
      ∧ Does m { r with footnotes := f } es { q with footnotes := g } out

theorem Shows.nil (Ls : List Bytes) (m : Nat) (r : Renderer) : Shows Ls m r [] r [] [] := fun f ho hn _ => ⟨f, ho, hn, rfl, Does.nil ..⟩

theorem Shows.append {Ls : List Bytes} {m : Nat} {r q p : Renderer} {a b : List Event} {rs rs' : List Bytes} {x y : Bytes} (h1 : Shows Ls m r a q rs x) (h2 : Shows Ls m q b p rs' y) :
    Shows Ls m r (a ++ b) p (rs ++ rs') (x ++ y) := by
  intro f ho hn hp
  rw [List.foldl_append] at hp ⊢
  obtain ⟨g, ho1, hn1, hr1, d1⟩ := h1 f ho hn ((prefix_addRefs _ _).trans hp)
  rw [← hr1] at hp ⊢
  obtain ⟨g2, ho2, hn2, hr2, d2⟩ := h2 g ho1 hn1 hp
  exact ⟨g2, ho2, hn2, hr2, d1.append d2⟩

theorem Shows.cons {Ls : List Bytes} {m : Nat} {r q p : Renderer} {e : Event} {b : List Event} {rs rs' : List Bytes} {x y : Bytes} (h1 : Shows Ls m r [e] q rs x) (h2 : Shows Ls m q b p rs' y) :
    Shows Ls m r (e :: b) p (rs ++ rs') (x ++ y) := h1.append h2

theorem Shows.out {Ls : List Bytes} {m : Nat} {r q : Renderer} {a : List Event} {rs rs' : List Bytes} {x y : Bytes} (h : Shows Ls m r a q rs x) (e : x = y) (e' : rs = rs') :
    Shows Ls m r a q rs' y := e' ▸ e ▸ h

/-- Not in a definition or raw content; the first line of the output is not in a note. -/
structure Calm (m : Nat) (r : Renderer) : Prop where
  ignore : r.ignore = false
  raw : r.raw = .none
  first : m ≠ 0 → r.firstLine = false

theorem Shows.one {Ls : List Bytes} {m : Nat} {r q : Renderer} {e : Event} {out : Bytes} (hi : r.ignore = false) (h1 : ∀ l a, e ≠ .start (.footnote l) a) (h2 : ∀ l, e ≠ .end (.footnote l))
    (h3 : ∀ l a, e ≠ .start (.linkDefinition l) a) (h4 : ∀ l, e ≠ .end (.linkDefinition l)) (h5 : e ≠ .end .document)
    (hp : e = .end .paragraph → q.listTightness.head? = some true) (hb : m ≠ 0 → (e = .blankline ∨ e = .escape) → q = r)
    (h : ∀ f : Footnotes, f.number = m → ∃ o, ({ r with footnotes := f } : Renderer).core e = .ok ({ q with footnotes := f }, o) ∧ o.flatten = out) :
    Shows Ls m r [e] q [] out := by
  intro f ho hn _
  obtain ⟨o, hc, rfl⟩ := h f hn
  refine ⟨f, ho, hn, rfl, Does.step (o := o) h5 hp ?_ ?_⟩
  · intro hm hbl
    obtain rfl := hb hm hbl
    refine ⟨rfl, ?_⟩
    rcases hbl with rfl | rfl <;> (simp only [Renderer.core, Except.ok.injEq, Prod.mk.injEq] at hc; exact hc.2.symm)
  · rw [step_core (r := { r with footnotes := f }) ho hi ⟨h1, h2⟩ h3 h4, hc]

/-! ## Text and layout -/

theorem escText_eq (s : Bytes) : (writeText s).flatten = escText s := by
  rw [writeText_flatten]
  unfold escText
  congr 1
  funext c
  rw [esc1_eq]
  simp

theorem escValue_eq (s : Bytes) : (writeAttr s).flatten = escValue s := by
  rw [writeAttr_flatten]
  unfold escValue
  congr 1
  funext c
  rw [esc1_eq]
  simp

theorem inert_text {s : Bytes} (h : inert s = true) : escText s = s := by
  induction s with
  | nil => rfl
  | cons c s ih =>
    simp only [inert, List.all_cons, Bool.and_eq_true, bne_iff_ne, ne_eq] at h ih
    obtain ⟨⟨⟨⟨h1, h2⟩, h3⟩, _⟩, h5⟩ := h
    have := ih h5
    simp only [escText, List.flatMap_cons] at this ⊢
    rw [this, if_neg h1, if_neg h2, if_neg h3]
    rfl

theorem inert_value {s : Bytes} (h : inert s = true) : escValue s = s := by
  induction s with
  | nil => rfl
  | cons c s ih =>
    simp only [inert, List.all_cons, Bool.and_eq_true, bne_iff_ne, ne_eq] at h ih
    obtain ⟨⟨⟨⟨h1, h2⟩, h3⟩, h4⟩, h5⟩ := h
    have := ih h5
    simp only [escValue, List.flatMap_cons] at this ⊢
    rw [this, if_neg h1, if_neg h2, if_neg h3, if_neg h4]
    rfl

theorem parts_value (v : Bytes) : (((Attr.parts v).map writeAttr).flatten).flatten = escValue (Attr.display v) := by
  unfold Attr.display
  generalize Attr.parts v = ps
  induction ps with
  | nil => rfl
  | cons p ps ih =>
    simp only [List.map_cons, List.flatten_cons, List.flatten_append, ih, escValue_eq]
    simp [escValue]

theorem indentOut_eq (r : Renderer) : r.indentOut.flatten = layIndent r.indent r.depth := by
  unfold Renderer.indentOut layIndent
  cases r.indent with
  | none => rfl
  | some i =>
    simp only
    split
    · rename_i h
      have : i.string = [] := by simpa using h
      rw [this]
      simp
    · rfl

/-- The depth at which lines are laid out. -/
def DepthIs (r : Renderer) (d : Nat) : Prop := r.indent ≠ none → r.depth = d

theorem DepthIs.lay {r : Renderer} {d : Nat} (h : DepthIs r d) : layIndent r.indent r.depth = layIndent r.indent d := by
  unfold layIndent
  cases hi : r.indent with
  | none => rfl
  | some i => simp only [h (by simp [hi])]

/-- The depth after entering a container. -/
def deeper (r : Renderer) : Nat := if r.indent = none then r.depth else r.depth + 1

theorem block_zero (r : Renderer) {d : Nat} (h : DepthIs r d) : (r.block 0).1 = r ∧ (r.block 0).2.flatten = layLine r.indent r.firstLine d := by
  unfold Renderer.block layLine
  rw [← h.lay, ← indentOut_eq]
  cases hi : r.indent with
  | none => simp [layIndent, Renderer.indentOut, hi]
  | some i =>
    simp only [Int.lt_irrefl, if_false]
    refine ⟨trivial, ?_⟩
    split <;> simp [*]

theorem block_in (r : Renderer) {d : Nat} (h : DepthIs r d) : (r.block 1).1 = { r with depth := deeper r } ∧ (r.block 1).2.flatten = layLine r.indent r.firstLine d := by
  unfold Renderer.block layLine deeper
  rw [← h.lay, ← indentOut_eq]
  cases hi : r.indent with
  | none => simp [layIndent, Renderer.indentOut, hi]; rw [← hi]
  | some i =>
    have h1 : ¬ ((1 : Int) < 0) := by decide
    have h2 : (0 : Int) < 1 := by decide
    simp only [h1, h2, if_false, if_true]
    refine ⟨?_, ?_⟩
    · have : nextDepth r.depth 1 = r.depth + 1 := by unfold nextDepth; split <;> omega
      rw [this]; simp; rw [hi]
    · split <;> simp [*]

theorem block_out (r : Renderer) {d : Nat} {n : Nat} (hn : n = if r.indent = none then r.depth else r.depth - 1) (hp : r.indent ≠ none → r.depth = d + 1) :
    (r.block (-1)).1 = { r with depth := n } ∧ (r.block (-1)).2.flatten = layLine r.indent r.firstLine d := by
  subst hn
  obtain ⟨ind, dep, raw, img, lt, fl, ig, fn⟩ := r
  simp only at hp ⊢
  cases ind with
  | none => simp [Renderer.block, layLine, layIndent]
  | some i =>
    have h1 : ((-1 : Int) < 0) := by decide
    have h2 : ¬ (0 : Int) < -1 := by decide
    have hd := hp (by simp)
    subst hd
    have : nextDepth (d + 1) (-1) = d := by unfold nextDepth; split <;> omega
    simp only [Renderer.block, layLine, h1, h2, if_false, if_true, this]
    refine ⟨by simp, ?_⟩
    have := indentOut_eq ⟨some i, d, raw, img, lt, fl, ig, fn⟩
    simp only at this
    rw [← this]
    split <;> simp

/-! ## Attributes -/

/-- Elements with a class of their own other than divs. -/
def fixedClass : Container → Bool
  | .list (.task _) _ | .math _ => true
  | _ => false

theorem class_part (c : Container) (h0 : ∀ cls, c = .div cls → inert cls = true) (h : fixedClass c = false) :
    (writeClass c true).flatten = if ownClass c ≠ [] then b! " " ++ escValue (ownClass c) else [] := by
  cases c with
  | div cls =>
    rw [show ownClass (.div cls) = cls from rfl, inert_value (h0 cls rfl)]
    cases cls <;> simp [writeClass, impliedClass]
  | list k t => cases k <;> first | rfl | simp [fixedClass] at h
  | math d => simp [fixedClass] at h
  | _ => rfl

theorem attrsOut_eq (c : Container) (ps : List (Bytes × Bytes)) (h0 : ∀ cls, c = .div cls → inert cls = true)
    (h : fixedClass c = true → b! "class" ∉ ps.map (·.1)) : (attrsOut c ps).flatten = givenHtml c ps := by
  induction ps with
  | nil => rfl
  | cons p ps ih =>
    obtain ⟨k, v⟩ := p
    have ih := ih (fun hf hm => h hf (by simp at hm ⊢; exact .inr hm))
    simp only [attrsOut, givenHtml, List.flatten_append, ih, parts_value, attrHtml]
    congr 1
    by_cases hk : k = b! "class"
    · have hf : fixedClass c = false := by
        cases hc : fixedClass c with
        | false => rfl
        | true => exact absurd (by simp [hk]) (h hc)
      subst hk
      simp only [if_true, true_and, class_part c h0 hf]
      simp
    · simp only [hk, if_false, false_and]
      simp

theorem implied_eq (c : Container) (ks : List Bytes) (h0 : ∀ cls, c = .div cls → inert cls = true) : (impliedAttrs c ks).flatten =
    (match ownId c with
    | some id => if b! "id" ∈ ks then [] else attrHtml (b! "id") (escValue id)
    | none => [])
  ++ (if ownClass c = [] ∨ b! "class" ∈ ks then [] else attrHtml (b! "class") (escValue (ownClass c))) := by
  cases c with
  | div cls =>
    simp only [impliedAttrs, ownId, ownClass, inert_value (h0 cls rfl), List.nil_append, Bool.or_eq_true, List.isEmpty_iff, List.contains_iff_mem]
    split
    · rfl
    · rename_i h
      simp only [not_or] at h
      simp [writeClass, impliedClass, attrHtml, h.1]
  | list k t =>
    cases k with
    | task _ =>
      simp only [impliedAttrs, ownId, ownClass, List.nil_append, List.contains_iff_mem]
      simp only [show (b! "task-list" = []) = False by simp, false_or]
      split
      · rfl
      · simp only [writeClass, impliedClass]; decide
    | _ => rfl
  | math d =>
    cases d
    all_goals
      simp only [impliedAttrs, ownId, ownClass, List.nil_append, List.contains_iff_mem]
      first
        | simp only [show (b! "math inline" = []) = False by simp, false_or]
        | simp only [show (b! "math display" = []) = False by simp, false_or]
      split
      · rfl
      · decide
  | heading l s id =>
    cases s
    · simp only [impliedAttrs, ownId, ownClass, true_or, if_true, List.append_nil, List.contains_iff_mem]
      split
      · rfl
      · simp [attrHtml, escValue_eq]
    · rfl
  | «section» id =>
    simp only [impliedAttrs, ownId, ownClass, true_or, if_true, List.append_nil, List.contains_iff_mem]
    split
    · rfl
    · simp [attrHtml, escValue_eq]
  | _ => rfl

theorem attributes_eq (c : Container) (attrs : Attr.Attributes) (h : classOk attrs c = true) :
    (attrsOut c (Attr.uniquePairs attrs) ++ impliedAttrs c ((Attr.uniquePairs attrs).map (·.1))).flatten = attributesHtml c attrs := by
  have h0 : ∀ cls, c = .div cls → inert cls = true := by rintro cls rfl; exact h
  rw [List.flatten_append, attrsOut_eq c _ h0, implied_eq c _ h0]
  · unfold attributesHtml
    simp only [List.append_assoc]
    rfl
  · intro hf
    cases c with
    | list k t => cases k <;> simp [fixedClass] at hf; simpa [classOk] using h
    | math d => simpa [classOk] using h
    | _ => simp [fixedClass] at hf

/-! ## Start and end of an element -/

/-- Elements with a start and an end tag. -/
def hasTags : Container → Bool
  | .document | .footnote _ | .linkDefinition _ | .rawBlock _ | .rawInline _ | .image .. => false
  | _ => true

/-- The tightness of lists inside an element. -/
def pushTight (c : Container) (l : List Bool) : List Bool :=
  match c with
  | .list _ t => t :: l
  | _ => l

theorem startBlock_eq (r : Renderer) (c : Container) {d : Nat} (h : DepthIs r d) :
    (r.startBlock c).1 = { r with depth := if isBlockContainer c then deeper r else r.depth }
    ∧ (r.startBlock c).2.flatten = if isBlock c then layLine r.indent r.firstLine d else [] := by
  unfold Renderer.startBlock
  have hb : isBlockContainer c = true → isBlock c = true := by cases c <;> simp [isBlock, isBlockContainer]
  cases h1 : isBlock c with
  | false =>
    have : isBlockContainer c = false := by
      cases h2 : isBlockContainer c with
      | false => rfl
      | true => rw [hb h2] at h1; exact h1
    simp [this]
  | true =>
    cases h2 : isBlockContainer c with
    | false =>
      have := block_zero r h
      simp only [if_true, Bool.false_eq_true, if_false]
      exact this
    | true =>
      have := block_in r h
      simp only [if_true]
      exact this

theorem openTag_eq (r : Renderer) (c : Container) (hc : hasTags c = true) (hp : c = .paragraph → r.listTightness.head? ≠ some true) :
    ∃ o, r.openTag c = .ok ({ r with listTightness := pushTight c r.listTightness }, some o) ∧ o.flatten = b! "<" ++ elemName c ++ leadHtml c := by
  cases c with
  | document => simp [hasTags] at hc
  | footnote => simp [hasTags] at hc
  | linkDefinition => simp [hasTags] at hc
  | rawBlock => simp [hasTags] at hc
  | rawInline => simp [hasTags] at hc
  | image => simp [hasTags] at hc
  | paragraph => exact ⟨_, by simp only [Renderer.openTag]; rw [if_neg (hp rfl)]; rfl, rfl⟩
  | list k t =>
    refine ⟨_, rfl, ?_⟩
    cases k with
    | ordered n s start =>
      simp only [listTag, elemName, leadHtml, List.flatten_append]
      split <;> cases n <;> simp [listType, attrHtml]
    | _ => rfl
  | link dst ty =>
    refine ⟨_, rfl, ?_⟩
    simp only [linkTag, elemName, leadHtml]
    split
    · rfl
    · split <;> simp [attrHtml, escValue_eq]
  | heading l s id => exact ⟨_, rfl, by simp [elemName, leadHtml]⟩
  | tableCell a hd => cases hd <;> exact ⟨_, rfl, rfl⟩
  | _ => exact ⟨_, rfl, rfl⟩

theorem closeStart_eq (r : Renderer) (c : Container) (hc : hasTags c = true) {d : Nat} (hd : DepthIs r d) :
    (r.closeStart c).1 = r ∧ (r.closeStart c).2.flatten = trailHtml c ++ b! ">" ++ innerStart (layLine r.indent r.firstLine d) c := by
  cases c with
  | image => simp [hasTags] at hc
  | tableCell a hd =>
    refine ⟨rfl, ?_⟩
    cases a <;> simp [Renderer.closeStart, trailHtml, attrHtml, alignName, innerStart]
  | codeBlock lang =>
    refine ⟨rfl, ?_⟩
    simp only [Renderer.closeStart, trailHtml, innerStart, List.isEmpty_iff]
    split
    · simp
    · simp [escValue_eq]
  | math d => cases d <;> exact ⟨rfl, rfl⟩
  | taskListItem ch =>
    obtain ⟨h1, h2⟩ := block_zero r hd
    refine ⟨h1, ?_⟩
    cases ch <;> simp [Renderer.closeStart, trailHtml, innerStart, h2]
  | _ => exact ⟨rfl, rfl⟩

theorem DepthIs.deeper {r : Renderer} {d : Nat} (h : DepthIs r d) : r.indent ≠ none → Html.deeper r = d + 1 := by
  intro hi
  unfold Html.deeper
  rw [if_neg hi, h hi]

theorem start_tags (r : Renderer) (c : Container) (attrs : Attr.Attributes) {d : Nat} (h : DepthIs r d) (hc : hasTags c = true) (h0 : r.imgAltText = 0)
    (hp : c = .paragraph → r.listTightness.head? ≠ some true) (hcl : classOk attrs c = true) :
    ∃ o, r.core (.start c attrs) = .ok ({ r with depth := if isBlockContainer c then deeper r else r.depth, listTightness := pushTight c r.listTightness, firstLine := false }, o)
      ∧ o.flatten = (if isBlock c then layLine r.indent r.firstLine d else []) ++ startTag c attrs ++ innerStart (layLine r.indent r.firstLine (if isBlockContainer c then d + 1 else d)) c := by
  obtain ⟨hs1, hs2⟩ := startBlock_eq r c h
  have ha := attributes_eq c attrs hcl
  simp only [Renderer.core, Renderer.start, hs1, h0, Nat.lt_irrefl, decide_false, Bool.false_and, Bool.false_eq_true, if_false]
  obtain ⟨o, ho1, ho2⟩ := openTag_eq { r with depth := if isBlockContainer c then deeper r else r.depth } c hc hp
  have hd : DepthIs { r with depth := if isBlockContainer c then deeper r else r.depth, listTightness := pushTight c r.listTightness } (if isBlockContainer c then d + 1 else d) := by
    intro hi
    simp only at hi ⊢
    split
    · exact h.deeper hi
    · exact h hi
  obtain ⟨hc1, hc2⟩ := closeStart_eq _ c hc hd
  rw [← h0, ho1]
  simp only
  refine ⟨(r.startBlock c).2 ++ Renderer.tagRest { r with depth := if isBlockContainer c then deeper r else r.depth, listTightness := pushTight c r.listTightness } c attrs o, ?_, ?_⟩
  · rw [hc1]
  · simp only [Renderer.tagRest, List.flatten_append, hs2, hc2, ho2] at ha ⊢
    simp only [startTag, ← ha, List.append_assoc]

/-- The state in an element. -/
def inside (r : Renderer) (c : Container) : Renderer :=
  { r with depth := if isBlockContainer c then deeper r else r.depth, listTightness := pushTight c r.listTightness, firstLine := false }

theorem close_tags (r : Renderer) (c : Container) {d : Nat} (h : DepthIs r d) (hc : hasTags c = true) (h0 : r.imgAltText = 0)
    (hp : c = .paragraph → r.listTightness.head? ≠ some true) (hn : c = .paragraph → r.footnotes.number = 0) :
    ∃ o, (inside r c).core (.end c) = .ok ({ r with firstLine := false }, o)
      ∧ o.flatten = (if isBlockContainer c then layLine r.indent false d else []) ++ innerEnd c ++ endTag c := by
  have hb : ∃ q o', (inside r c).closeBlock c = (q, o') ∧ q = { r with listTightness := pushTight c r.listTightness, firstLine := false }
      ∧ o'.flatten = if isBlockContainer c then layLine r.indent false d else [] := by
    unfold Renderer.closeBlock
    cases hb : isBlockContainer c with
    | false => exact ⟨_, _, rfl, by simp [inside, hb], by simp⟩
    | true =>
      have := block_out (inside r c) (n := r.depth) (d := d) (by simp only [inside, hb, if_true, deeper]; split <;> rfl)
        (by intro hi; simp only [inside, hb, if_true] at hi ⊢; exact h.deeper hi)
      refine ⟨((inside r c).block (-1)).1, ((inside r c).block (-1)).2, by simp, ?_, ?_⟩
      · rw [this.1]; simp [inside]
      · rw [this.2]; simp [inside]
  obtain ⟨q, o', hb1, rfl, hb3⟩ := hb
  simp only [Renderer.core, Renderer.close, hb1, h0, Nat.lt_irrefl, decide_false, Bool.false_and, Bool.false_eq_true, if_false]
  have : ∃ o, Renderer.closeTag { r with listTightness := pushTight c r.listTightness, firstLine := false } c = .ok ({ r with firstLine := false }, some o) ∧ o.flatten = innerEnd c ++ endTag c := by
    cases c with
    | document => simp [hasTags] at hc
    | footnote => simp [hasTags] at hc
    | linkDefinition => simp [hasTags] at hc
    | rawBlock => simp [hasTags] at hc
    | rawInline => simp [hasTags] at hc
    | image => simp [hasTags] at hc
    | paragraph =>
      simp only [Renderer.closeTag, pushTight, Footnotes.inEpilogue, hn rfl]
      rw [if_neg (hp rfl)]
      exact ⟨_, rfl, rfl⟩
    | list k t => cases k <;> exact ⟨_, rfl, rfl⟩
    | heading l s id => exact ⟨_, rfl, by simp [endTag, innerEnd, elemName]⟩
    | tableCell a hd => cases hd <;> exact ⟨_, rfl, rfl⟩
    | math d => cases d <;> exact ⟨_, rfl, rfl⟩
    | _ => exact ⟨_, rfl, rfl⟩
  obtain ⟨o, h1, h2⟩ := this
  rw [← h0, h1]
  refine ⟨o' ++ o, rfl, ?_⟩
  rw [List.flatten_append, hb3, h2, List.append_assoc]

/-! ## Leaves -/

theorem givenHtml_document (ps : List (Bytes × Bytes)) : (plainAttrs ps).flatten = givenHtml .document ps := by
  induction ps with
  | nil => rfl
  | cons p ps ih =>
    obtain ⟨k, v⟩ := p
    simp only [plainAttrs, givenHtml, List.flatten_append, ih, parts_value, attrHtml]
    simp [ownClass]

theorem labelPos_some {l : Bytes} {ls : List Bytes} {j : Nat} (h : labelPos l ls = some j) (t : List Bytes) : l ∈ ls ∧ ((ls ++ t).takeWhile (fun x => x != l)).length = j := by
  induction ls generalizing j with
  | nil => simp [labelPos] at h
  | cons x ls ih =>
    simp only [labelPos] at h
    split at h
    · rename_i hx; simp at h; subst h; simp [hx]
    · rename_i hx
      cases h1 : labelPos l ls with
      | none => rw [h1] at h; simp at h
      | some m =>
        rw [h1] at h
        simp at h
        subst h
        obtain ⟨h2, h3⟩ := ih h1
        have hx' : (x != l) = true := by simpa using hx
        simp [h2, List.takeWhile_cons, hx', h3]

theorem labelPos_fresh {l : Bytes} {ls : List Bytes} (h : labelPos l ls = none) (t : List Bytes) : l ∉ ls ∧ ((ls ++ l :: t).takeWhile (fun x => x != l)).length = ls.length := by
  induction ls with
  | nil => simp
  | cons x ls ih =>
    simp only [labelPos] at h
    split at h
    · simp at h
    · rename_i hx
      cases h1 : labelPos l ls with
      | some m => rw [h1] at h; simp at h
      | none =>
        obtain ⟨h2, h3⟩ := ih h1
        have hx' : (x != l) = true := by simpa using hx
        have : l ≠ x := fun e => hx e.symm
        simp [h2, this, List.takeWhile_cons, hx', h3]

/-- The number of a reference is the place of its label among those of all notes. -/
theorem reference_number (f : Footnotes) (l : Bytes) {Ls : List Bytes} (h : addRef f.references l <+: Ls) : (f.reference l).1 = noteNumber Ls l := by
  obtain ⟨t, rfl⟩ := h
  unfold Footnotes.reference noteNumber addRef
  cases hp : labelPos l f.references with
  | some j =>
    obtain ⟨h1, h2⟩ := labelPos_some hp t
    simp only [h1, if_true, h2]
  | none =>
    obtain ⟨h1, h2⟩ := labelPos_fresh hp t
    simp only [h1, if_false, List.append_assoc, List.cons_append, List.nil_append, h2, List.length_append, List.length_cons, List.length_nil]

theorem reference_facts (f : Footnotes) (l : Bytes) : (f.reference l).2.open_ = f.open_ ∧ (f.reference l).2.number = f.number := by
  unfold Footnotes.reference
  split <;> exact ⟨rfl, rfl⟩

/-- A reference to a footnote. -/
theorem reference_ok {Ls : List Bytes} {m : Nat} (r : Renderer) (l : Bytes) (hc : Calm m r) :
    Shows Ls m r [.footnoteReference l] { r with firstLine := false } [l] (if r.imgAltText = 0 then refHtml (noteNumber Ls l) else []) := by
  intro f ho hn hp
  simp only [List.foldl_cons, List.foldl_nil] at hp ⊢
  obtain ⟨h1, h2⟩ := reference_facts f l
  refine ⟨(f.reference l).2, h1.trans ho, h2.trans hn, reference_refs f l, ?_⟩
  have hs : ({ r with footnotes := f } : Renderer).step (.footnoteReference l) = .ok ({ r with firstLine := false, footnotes := (f.reference l).2 },
      (({ r with footnotes := f } : Renderer).footnoteReference l).2) := by
    rw [step_core (r := { r with footnotes := f }) (e := .footnoteReference l) ho hc.ignore ⟨by simp, by simp⟩ (by simp) (by simp)]
    rfl
  have := Does.step (m := m) (by simp) (by simp) (by simp) hs
  have ho : ((({ r with footnotes := f } : Renderer).footnoteReference l).2).flatten = if r.imgAltText = 0 then refHtml (noteNumber Ls l) else [] := by
    rw [← reference_number f l hp]
    simp only [Renderer.footnoteReference]
    split
    · simp [refHtml]
    · rfl
  rw [ho] at this
  exact this

theorem leaf_ok {Ls : List Bytes} {m : Nat} (r : Renderer) (e : Event) {d : Nat} (h : DepthIs r d) (hc : Calm m r) (h0 : r.imgAltText = 0) (he : Event.simple e = true) :
    Shows Ls m r [e] { r with firstLine := false } (Node.leaf e).refs (leafHtml r.indent Ls r.firstLine d e) := by
  by_cases href : ∃ l, e = .footnoteReference l
  · obtain ⟨l, rfl⟩ := href
    have := reference_ok (Ls := Ls) r l hc
    rw [if_pos h0] at this
    exact this
  have hrs : (Node.leaf e).refs = [] := by cases e <;> first | rfl | exact absurd ⟨_, rfl⟩ href
  rw [hrs]
  refine Shows.one hc.ignore ?_ ?_ ?_ ?_ ?_ ?_ ?_ ?_
  rotate_left 6
  · intro hm _
    have := hc.first hm
    rw [← this]
  · intro f hf
    have hl := h.lay
    have hi := indentOut_eq ({ r with footnotes := f } : Renderer)
    obtain ⟨hb1, hb2⟩ := block_zero ({ r with footnotes := f } : Renderer) (d := d) h
    cases e with
    | start => simp [Event.simple] at he
    | «end» => simp [Event.simple] at he
    | footnoteReference l => exact absurd ⟨_, rfl⟩ href
    | str s => exact ⟨_, rfl, by simp [Renderer.str, hc.raw, h0, escText_eq, leafHtml]⟩
    | symbol s => exact ⟨_, rfl, by simp [leafHtml, inert_text (by simpa [Event.simple] using he)]⟩
    | hardbreak => exact ⟨_, by simp only [Renderer.core, hb1]; rfl, by simp [leafHtml, hb2]⟩
    | softbreak => exact ⟨_, rfl, by simp [leafHtml, hi, hl]⟩
    | thematicBreak a => exact ⟨_, by simp only [Renderer.core, hb1]; rfl, by simp [leafHtml, hb2, givenHtml_document]⟩
    | _ => exact ⟨_, rfl, by simp [leafHtml]⟩
  all_goals first | (rintro rfl; simp [Event.simple] at he; done) | (intros; rintro rfl; simp [Event.simple] at he; done)

theorem leaf_alt {Ls : List Bytes} {m : Nat} (r : Renderer) (n : Event) {d : Nat} (h : DepthIs r d) (hc : Calm m r) (h0 : 0 < r.imgAltText) (hf : r.firstLine = false) (he : (Node.leaf n).imageOk = true) :
    Shows Ls m r [n] r (Node.leaf n).refs ((Node.leaf n).alt r.indent d) := by
  have hr : ({ r with firstLine := false } : Renderer) = r := by rw [← hf]
  simp only [Node.imageOk, Bool.and_eq_true] at he
  by_cases href : ∃ l, n = .footnoteReference l
  · obtain ⟨l, rfl⟩ := href
    have := reference_ok (Ls := Ls) r l hc
    rw [if_neg (by omega), hr] at this
    exact this
  have hrs : (Node.leaf n).refs = [] := by cases n <;> first | rfl | exact absurd ⟨_, rfl⟩ href
  rw [hrs]
  refine Shows.one hc.ignore ?_ ?_ ?_ ?_ ?_ ?_ (fun _ _ => rfl) ?_
  rotate_left 6
  · intro f _
    have hl := h.lay
    have hi := indentOut_eq ({ r with footnotes := f } : Renderer)
    obtain ⟨hb1, hb2⟩ := block_zero ({ r with footnotes := f } : Renderer) (d := d) h
    have hr : ({ r with footnotes := f, firstLine := false } : Renderer) = { r with footnotes := f } := by rw [← hf]
    cases n with
    | start => simp [Event.simple] at he
    | «end» => simp [Event.simple] at he
    | footnoteReference l => exact absurd ⟨_, rfl⟩ href
    | thematicBreak => simp at he
    | str s => exact ⟨_, by simp only [Renderer.core, hr]; rfl, by simp [Renderer.str, hc.raw, h0, escValue_eq, Node.alt]⟩
    | symbol s => exact ⟨_, by simp only [Renderer.core, hr]; rfl, by simp [Node.alt, leafHtml, inert_text (by simpa [Event.simple] using he)]⟩
    | hardbreak => exact ⟨_, by simp only [Renderer.core, hb1, hr]; rfl, by simp only [hf] at hb2 ⊢; simp [Node.alt, leafHtml, hb2]⟩
    | softbreak => exact ⟨_, by simp only [Renderer.core, hr]; rfl, by simp [Node.alt, leafHtml, hi, hl]⟩
    | _ => exact ⟨_, by simp only [Renderer.core, hr]; rfl, by simp [Node.alt, leafHtml]⟩
  all_goals first | (rintro rfl; simp [Event.simple] at he; done) | (intros; rintro rfl; simp [Event.simple] at he; done)

/-! ## In an image -/

theorem notBlock_start (r : Renderer) (c : Container) (h : isBlock c = false) : r.startBlock c = (r, []) := by simp [Renderer.startBlock, h]
theorem notBlock_close (r : Renderer) (c : Container) (h : isBlock c = false) : r.closeBlock c = (r, []) := by
  have : isBlockContainer c = false := by cases c <;> simp [isBlock, isBlockContainer] at h ⊢
  simp [Renderer.closeBlock, this]

/-- The references of an element are those of its content. -/
theorem elem_refs {c : Container} (h1 : ∀ l, c ≠ .footnote l) (h2 : ∀ l, c ≠ .linkDefinition l) (attrs : Attr.Attributes) (kids : List Node) :
    (Node.elem c attrs kids).refs = nodeRefs kids := by
  cases c <;> first | rfl | exact absurd rfl (h1 _) | exact absurd rfl (h2 _)

mutual
theorem alt_ok {Ls : List Bytes} {m : Nat} (n : Node) (r : Renderer) {d : Nat} (h : DepthIs r d) (hc : Calm m r) (h0 : 0 < r.imgAltText) (hf : r.firstLine = false) (hn : n.imageOk = true) :
    Shows Ls m r n.events r n.refs (n.alt r.indent d) := by
  match n with
  | .leaf e => exact leaf_alt r e h hc h0 hf hn
  | .elem c attrs kids =>
    simp only [Node.imageOk, Bool.and_eq_true, Bool.not_eq_true', bne_iff_ne, ne_eq] at hn
    obtain ⟨⟨hb, hd⟩, hk⟩ := hn
    have hn1 : ∀ l, c ≠ .footnote l := by rintro l rfl; simp [isBlock] at hb
    have hn2 : ∀ l, c ≠ .linkDefinition l := by rintro l rfl; simp [isBlock] at hb
    have hn3 : c ≠ .paragraph := by rintro rfl; simp [isBlock] at hb
    have hrefs := elem_refs hn1 hn2 attrs kids
    by_cases hi : isImage c = true
    · obtain ⟨src, ty, rfl⟩ : ∃ s t, c = .image s t := by cases c <;> simp [isImage] at hi; exact ⟨_, _, rfl⟩
      have s1 : Shows Ls m r [.start (.image src ty) attrs] { r with imgAltText := r.imgAltText + 1 } [] [] := by
        refine Shows.one hc.ignore (by simp) (by simp) (by simp) (by simp) (by simp) (by simp) (by simp) ?_
        intro f _
        refine ⟨[], ?_, rfl⟩
        have : r.imgAltText ≠ 0 := by omega
        simp [Renderer.core, Renderer.start, notBlock_start _ _ hb, isImage, Renderer.openTag, this]
      have s2 := alts_ok (Ls := Ls) (m := m) kids { r with imgAltText := r.imgAltText + 1 } (d := d) h ⟨hc.1, hc.2, hc.3⟩ (Nat.succ_pos _) hf hk
      have s3 : Shows Ls m { r with imgAltText := r.imgAltText + 1 } [.end (.image src ty)] r [] [] := by
        refine Shows.one hc.ignore (by simp) (by simp) (by simp) (by simp) (by simp) (by simp) (by simp) ?_
        intro f _
        refine ⟨[], ?_, rfl⟩
        have hr0 : ({ r with footnotes := f, firstLine := false } : Renderer) = { r with footnotes := f } := by rw [← hf]
        have : r.imgAltText ≠ 0 := by omega
        simp [Renderer.core, Renderer.close, notBlock_close _ _ hb, isImage, Renderer.closeTag, this, csub, bind, Except.bind, pure, Except.pure, hr0]
      exact (s1.cons (s2.append s3)).out (by simp [Node.alt]) (by rw [hrefs]; simp)
    · have s1 : Shows Ls m r [.start c attrs] r [] [] := by
        refine Shows.one hc.ignore ?_ (by simp) ?_ (by simp) (by simp) (by simp) (by simp) ?_
        · intro l a e; injection e with e _; exact hn1 l e
        · intro l a e; injection e with e _; exact hn2 l e
        · intro f _
          exact ⟨[], by simp [Renderer.core, Renderer.start, notBlock_start _ _ hb, h0, hi], rfl⟩
      have s2 := alts_ok (Ls := Ls) (m := m) kids r h hc h0 hf hk
      have s3 : Shows Ls m r [.end c] r [] [] := by
        refine Shows.one hc.ignore (by simp) ?_ (by simp) ?_ ?_ ?_ (by simp) ?_
        · intro l e; injection e with e; exact hn1 l e
        · intro l e; injection e with e; exact hn2 l e
        · intro e; injection e with e; exact hd e
        · intro e; injection e with e; exact absurd e hn3
        · intro f _
          exact ⟨[], by simp [Renderer.core, Renderer.close, notBlock_close _ _ hb, h0, hi], rfl⟩
      exact (s1.cons (s2.append s3)).out (by simp [Node.alt]) (by rw [hrefs]; simp)
theorem alts_ok {Ls : List Bytes} {m : Nat} (ns : List Node) (r : Renderer) {d : Nat} (h : DepthIs r d) (hc : Calm m r) (h0 : 0 < r.imgAltText) (hf : r.firstLine = false) (hn : nodesImageOk ns = true) :
    Shows Ls m r (nodeEvents ns) r (nodeRefs ns) (nodeAlts r.indent d ns) := by
  match ns with
  | [] => exact Shows.nil Ls m r
  | n :: ns =>
    simp only [nodesImageOk, Bool.and_eq_true] at hn
    exact (alt_ok n r h hc h0 hf hn.1).append (alts_ok ns r h hc h0 hf hn.2)
end

/-! ## Definitions and raw content -/

/-- Events of a link definition. -/
def InDef (e : Event) : Prop := InDefinition e ∧ e ≠ .end .paragraph ∧ e ≠ .end .document

mutual
theorem definition_in (n : Node) (h : n.definitionOk = true) : ∀ e ∈ n.events, InDef e := by
  match n with
  | .leaf e =>
    intro x hx
    rw [List.mem_singleton.1 hx]
    cases e <;> simp [Node.definitionOk] at h <;> exact ⟨⟨⟨by simp, by simp⟩, by simp, by simp⟩, by simp, by simp⟩
  | .elem c attrs kids =>
    have hk : nodesDefinitionOk kids = true := by cases c <;> simp [Node.definitionOk] at h <;> exact h
    have ih := definitions_in kids hk
    have h1 : ∀ l, c ≠ .footnote l := by rintro l rfl; simp [Node.definitionOk] at h
    have h2 : ∀ l, c ≠ .linkDefinition l := by rintro l rfl; simp [Node.definitionOk] at h
    have h3 : c ≠ .paragraph := by rintro rfl; simp [Node.definitionOk] at h
    have h4 : c ≠ .document := by rintro rfl; simp [Node.definitionOk] at h
    intro x hx
    simp only [Node.events, List.mem_cons, List.mem_append, List.not_mem_nil, or_false] at hx
    rcases hx with rfl | hx | rfl
    · exact ⟨⟨⟨fun l a e => by injection e with e _; exact h1 l e, by simp⟩, fun l a e => by injection e with e _; exact h2 l e, by simp⟩, by simp, by simp⟩
    · exact ih x hx
    · exact ⟨⟨⟨by simp, fun l e => by injection e with e; exact h1 l e⟩, by simp, fun l e => by injection e with e; exact h2 l e⟩,
        fun e => by injection e with e; exact h3 e, fun e => by injection e with e; exact h4 e⟩
theorem definitions_in (ns : List Node) (h : nodesDefinitionOk ns = true) : ∀ e ∈ nodeEvents ns, InDef e := by
  match ns with
  | [] => simp [nodeEvents]
  | n :: ns =>
    simp only [nodesDefinitionOk, Bool.and_eq_true] at h
    intro x hx
    simp only [nodeEvents, List.mem_append] at hx
    rcases hx with hx | hx
    · exact definition_in n h.1 x hx
    · exact definitions_in ns h.2 x hx
end

/-- A link definition. -/
theorem definition_ok {Ls : List Bytes} {m : Nat} (r : Renderer) (hi : r.ignore = false) (l : Bytes) (attrs : Attr.Attributes) (evs : List Event) (he : ∀ e ∈ evs, InDef e) :
    Shows Ls m r (.start (.linkDefinition l) attrs :: (evs ++ [.end (.linkDefinition l)])) r [] [] := by
  intro f ho hn _
  refine ⟨f, ho, hn, rfl, ?_⟩
  have h1 : Does m { r with footnotes := f } [.start (.linkDefinition l) attrs] { r with footnotes := f, ignore := true } ([] : Out).flatten := by
    refine Does.step (by simp) (by simp) (by simp) ?_
    simp [Renderer.step, Renderer.filter, ho]
  have h2 : Does m { r with footnotes := f, ignore := true } evs { r with footnotes := f, ignore := true } [] := by
    induction evs with
    | nil => exact Does.nil ..
    | cons e evs ih =>
      obtain ⟨⟨⟨a1, a2⟩, a3, a4⟩, a5, a6⟩ := he e (List.mem_cons_self ..)
      have hs : Does m { r with footnotes := f, ignore := true } [e] { r with footnotes := f, ignore := true } ([] : Out).flatten := by
        refine Does.step a6 (fun h => absurd h a5) (fun _ _ => ⟨rfl, rfl⟩) ?_
        have hf : ({ r with footnotes := f, ignore := true } : Renderer).filter e = some { r with footnotes := f, ignore := true } := by
          unfold Renderer.filter
          cases e with
          | start c a => cases c <;> first | exact absurd rfl (a1 _ _) | exact absurd rfl (a3 _ _) | simp [ho]
          | «end» c => cases c <;> first | exact absurd rfl (a4 _) | simp [ho]
          | _ => simp [ho]
        simp only [Renderer.step, hf]
      exact hs.append (ih (fun x hx => he x (List.mem_cons_of_mem _ hx)))
  have h3 : Does m { r with footnotes := f, ignore := true } [.end (.linkDefinition l)] { r with footnotes := f } ([] : Out).flatten := by
    refine Does.step (by simp) (by simp) (by simp) ?_
    simp only [Renderer.step, Renderer.filter, ho]
    rw [← hi]
  exact h1.append (h2.append h3)

theorem raw_strs (ns : List Node) (h : ns.all Node.isStr = true) : ∃ ss : List Bytes, nodeEvents ns = ss.map .str ∧ nodeRaw ns = ss.flatten := by
  induction ns with
  | nil => exact ⟨[], rfl, rfl⟩
  | cons n ns ih =>
    simp only [List.all_cons, Bool.and_eq_true] at h
    obtain ⟨ss, h1, h2⟩ := ih h.2
    cases n with
    | elem => simp [Node.isStr] at h
    | leaf e =>
      cases e <;> simp [Node.isStr] at h
      rename_i s
      exact ⟨s :: ss, by simp [nodeEvents, Node.events, h1], by simp [nodeRaw, h2]⟩

/-! ## Trees -/

/-- In a tight list. -/
def tightOf (r : Renderer) : Bool := r.listTightness.head? == some true

/-- The state before a node. -/
structure Ready (m : Nat) (r : Renderer) (d : Nat) (tight : Bool) : Prop where
  depth : DepthIs r d
  calm : Calm m r
  img : r.imgAltText = 0
  tig : tight = true ↔ r.listTightness.head? = some true
  first : r.firstLine = true → tight = false

theorem Ready.after {m : Nat} {r : Renderer} {d : Nat} {tight : Bool} (h : Ready m r d tight) (b : Bool) (hb : b = true → r.firstLine = true) : Ready m { r with firstLine := b } d tight :=
  ⟨h.depth, ⟨h.calm.1, h.calm.2, fun hm => by
    have := h.calm.3 hm
    cases b with
    | false => rfl
    | true => rw [hb rfl] at this; cases this⟩, h.img, h.tig, fun hh => h.first (hb hh)⟩

/-- The tightness inside an element. -/
def tightIn (tight : Bool) : Container → Bool
  | .list _ t => t
  | _ => tight

theorem Ready.inside {m : Nat} {r : Renderer} {d : Nat} {tight : Bool} (h : Ready m r d tight) (c : Container) :
    Ready m (inside r c) (if isBlockContainer c then d + 1 else d) (tightIn tight c) := by
  refine ⟨?_, ⟨h.calm.1, h.calm.2, fun _ => rfl⟩, h.img, ?_, by simp [Html.inside]⟩
  · intro hi
    simp only [Html.inside] at hi ⊢
    split
    · exact h.depth.deeper hi
    · exact h.depth hi
  · cases c <;> simp [Html.inside, pushTight, tightIn, h.tig]

theorem notfoot {c : Container} (hc : hasTags c = true) : (∀ l, c ≠ .footnote l) ∧ (∀ l, c ≠ .linkDefinition l) ∧ c ≠ .document := by
  refine ⟨?_, ?_, ?_⟩ <;> (intros; rintro rfl; simp [hasTags] at hc)

/-- An element with tags around its content. -/
theorem elem_ok {Ls : List Bytes} {m : Nat} {r : Renderer} {d : Nat} {tight : Bool} (h : Ready m r d tight) (c : Container) (attrs : Attr.Attributes) (kids : List Node) (hc : hasTags c = true)
    (hcl : classOk attrs c = true) (hp : c = .paragraph → tight = false) {rs : List Bytes} {out : Bytes}
    (hk : Shows Ls m (inside r c) (nodeEvents kids) (inside r c) rs out) :
    Shows Ls m r (Node.elem c attrs kids).events { r with firstLine := false } rs
      ((if isBlock c then layLine r.indent r.firstLine d else []) ++ startTag c attrs ++ innerStart (layLine r.indent r.firstLine (if isBlockContainer c then d + 1 else d)) c
        ++ out ++ (if isBlockContainer c then layLine r.indent false d else []) ++ innerEnd c ++ endTag c) := by
  have hp' : c = .paragraph → r.listTightness.head? ≠ some true := by
    intro e he
    have := h.tig.2 he
    rw [hp e] at this; cases this
  obtain ⟨n1, n2, n3⟩ := notfoot hc
  have s1 : Shows Ls m r [.start c attrs] (inside r c) [] ((if isBlock c then layLine r.indent r.firstLine d else []) ++ startTag c attrs ++ innerStart (layLine r.indent r.firstLine (if isBlockContainer c then d + 1 else d)) c) := by
    refine Shows.one h.calm.ignore ?_ (by simp) ?_ (by simp) (by simp) (by simp) (by simp) ?_
    · intro l a e; injection e with e _; exact n1 l e
    · intro l a e; injection e with e _; exact n2 l e
    · intro f _
      exact start_tags { r with footnotes := f } c attrs h.depth hc h.img hp' hcl
  have s3 : Shows Ls m (inside r c) [.end c] { r with firstLine := false } [] ((if isBlockContainer c then layLine r.indent false d else []) ++ innerEnd c ++ endTag c) := by
    by_cases hpar : c = .paragraph
    · subst hpar
      intro f ho hn _
      refine ⟨f, ho, hn, rfl, ?_⟩
      have hs : ({ inside r .paragraph with footnotes := f } : Renderer).step (.end .paragraph) = .ok ({ r with firstLine := false, footnotes := f }, if f.inEpilogue then [] else [b! "</p>"]) := by
        rw [step_core (r := { inside r .paragraph with footnotes := f }) (e := .end .paragraph) ho h.calm.ignore ⟨by simp, by simp⟩ (by simp) (by simp)]
        simp only [Renderer.core, Renderer.close, Renderer.closeBlock, isBlockContainer, Bool.false_eq_true, if_false, inside, h.img, Nat.lt_irrefl, decide_false, Bool.false_and, Renderer.closeTag, pushTight]
        rw [if_neg (hp' rfl)]
        simp
      have := Does.endPara (m := m) (q := { r with firstLine := false, footnotes := f }) (hp' rfl) hs ?_
      · exact this
      · unfold Footnotes.inEpilogue
        rw [hn]
        cases m <;> simp
    · refine Shows.one h.calm.ignore (by simp) ?_ (by simp) ?_ ?_ ?_ (by simp) ?_
      · intro l e; injection e with e; exact n1 l e
      · intro l e; injection e with e; exact n2 l e
      · intro e; injection e with e; exact n3 e
      · intro e; injection e with e; exact absurd e hpar
      · intro f _
        exact close_tags { r with footnotes := f } c h.depth hc h.img hp' (fun e => absurd e hpar)
  exact (s1.cons (hk.append s3)).out (by simp only [List.append_assoc]) (by simp)

theorem image_ok {Ls : List Bytes} {m : Nat} {r : Renderer} {d : Nat} {tight : Bool} (h : Ready m r d tight) (src : Bytes) (ty : SpanLinkType) (attrs : Attr.Attributes) (kids : List Node)
    (hk : nodesImageOk kids = true) :
    Shows Ls m r (Node.elem (.image src ty) attrs kids).events { r with firstLine := false } (nodeRefs kids)
      (b! "<img" ++ attributesHtml (.image src ty) attrs ++ attrHtml (b! "alt") (nodeAlts r.indent d kids)
      ++ (if src = [] then [] else attrHtml (b! "src") (escValue src)) ++ b! ">") := by
  have ha := attributes_eq (.image src ty) attrs rfl
  have s1 : Shows Ls m r [.start (.image src ty) attrs] { r with imgAltText := 1, firstLine := false } [] (b! "<img" ++ attributesHtml (.image src ty) attrs ++ b! " alt=\"") := by
    refine Shows.one h.calm.ignore (by simp) (by simp) (by simp) (by simp) (by simp) (by simp) (by simp) ?_
    intro f _
    refine ⟨_, by simp [Renderer.core, Renderer.start, Renderer.startBlock, isBlock, isImage, Renderer.openTag, h.img, Renderer.closeStart]; rfl, ?_⟩
    simp only [Renderer.tagRest, Renderer.closeStart, if_true, List.flatten_append, ← ha]
    simp
  have s2 := alts_ok (Ls := Ls) (m := m) kids { r with imgAltText := 1, firstLine := false } (d := d) h.depth ⟨h.calm.1, h.calm.2, fun _ => rfl⟩ (Nat.succ_pos _) rfl hk
  have s3 : Shows Ls m { r with imgAltText := 1, firstLine := false } [.end (.image src ty)] { r with firstLine := false } []
      ((if src = [] then [] else [b! "\" src=\""] ++ writeAttr src) ++ [b! "\">"] : Out).flatten := by
    refine Shows.one h.calm.ignore (by simp) (by simp) (by simp) (by simp) (by simp) (by simp) (by simp) ?_
    intro f _
    refine ⟨_, ?_, rfl⟩
    simp [Renderer.core, Renderer.close, Renderer.closeBlock, isBlockContainer, isImage, Renderer.closeTag, csub, bind, Except.bind, pure, Except.pure, h.img]
  refine (s1.cons (s2.append s3)).out ?_ (by simp)
  split <;> simp [attrHtml, escValue_eq]

/-- Texts of raw content. -/
theorem raw_texts {Ls : List Bytes} {m : Nat} (ss : List Bytes) (r : Renderer) (f : Bytes) (hi : r.ignore = false) (hr : r.raw = if f = b! "html" then .html else .other) :
    Shows Ls m r (ss.map .str) { r with firstLine := r.firstLine && ss.isEmpty } [] (if f = b! "html" then ss.flatten else []) := by
  induction ss generalizing r with
  | nil => simpa using (Shows.nil Ls m r).out (y := if f = b! "html" then [] else []) (by split <;> rfl) rfl
  | cons s ss ih =>
    have s1 : Shows Ls m r [.str s] { r with firstLine := false } [] (if f = b! "html" then s else []) := by
      refine Shows.one hi (by simp) (by simp) (by simp) (by simp) (by simp) (by simp) (by simp) ?_
      intro g _
      refine ⟨_, rfl, ?_⟩
      simp only [Renderer.str, hr]
      by_cases hf : f = b! "html" <;> simp [hf]
    have s2 := ih { r with firstLine := false } hi hr
    simp only [Bool.false_and] at s2
    simp only [List.isEmpty_cons, Bool.and_false]
    exact (s1.cons s2).out (by by_cases hf : f = b! "html" <;> simp [hf]) rfl

theorem raw_ok {Ls : List Bytes} {m : Nat} {r : Renderer} {d : Nat} {tight : Bool} (h : Ready m r d tight) (c : Container) (f : Bytes) (hc : c = .rawBlock f ∨ c = .rawInline f) (attrs : Attr.Attributes) (kids : List Node)
    (hk : kids.all Node.isStr = true) :
    Shows Ls m r (Node.elem c attrs kids).events { r with firstLine := false } []
      ((if isBlock c then layLine r.indent r.firstLine d else []) ++ if f = b! "html" then nodeRaw kids else []) := by
  obtain ⟨ss, h1, h2⟩ := raw_strs kids hk
  have hbc : isBlockContainer c = false := by rcases hc with rfl | rfl <;> rfl
  have s1 : Shows Ls m r [.start c attrs] { r with raw := if f = b! "html" then .html else .other } [] (if isBlock c then layLine r.indent r.firstLine d else []) := by
    refine Shows.one h.calm.ignore (by rcases hc with rfl | rfl <;> simp) (by simp) (by rcases hc with rfl | rfl <;> simp) (by simp) (by simp) (by simp) (by simp) ?_
    intro g _
    obtain ⟨hb1, hb2⟩ := startBlock_eq ({ r with footnotes := g } : Renderer) c (d := d) h.depth
    rw [hbc] at hb1
    refine ⟨(({ r with footnotes := g } : Renderer).startBlock c).2, ?_, hb2⟩
    simp only [Renderer.core, Renderer.start]
    rw [hb1]
    rcases hc with rfl | rfl <;> simp [Renderer.openTag, h.img]
  have s2 := raw_texts (Ls := Ls) (m := m) ss { r with raw := if f = b! "html" then .html else .other } f h.calm.ignore rfl
  generalize hb : (({ r with raw := if f = b! "html" then .html else .other } : Renderer).firstLine && ss.isEmpty) = b at s2
  have s3 : Shows Ls m { r with raw := if f = b! "html" then .html else .other, firstLine := b } [.end c] { r with firstLine := false } [] [] := by
    refine Shows.one h.calm.ignore (by simp) (by rcases hc with rfl | rfl <;> simp) (by simp) (by rcases hc with rfl | rfl <;> simp) (by rcases hc with rfl | rfl <;> simp) (by rcases hc with rfl | rfl <;> simp) (by simp) ?_
    intro g _
    have := h.calm.raw
    refine ⟨[], ?_, rfl⟩
    rcases hc with rfl | rfl <;> simp [Renderer.core, Renderer.close, Renderer.closeBlock, isBlockContainer, h.img, Renderer.closeTag, this]
  have := s1.cons (s2.append s3)
  rw [← h1] at this
  refine this.out ?_ rfl
  rw [h2, List.append_nil]

/-! ## Footnotes are put aside -/

/-- Put aside: events in a footnote. -/
def Aside (r : Renderer) (es : List Event) : Prop :=
  ∀ (f : Footnotes) (p : Bytes × List Event) (rest : List (Bytes × List Event)), f.open_ = p :: rest →
    ∃ (g : Footnotes) (p' : Bytes × List Event), g.open_ = p' :: rest ∧ g.number = f.number ∧ g.references = f.references ∧ ({ r with footnotes := f } : Renderer).pushEvents es = .ok ({ r with footnotes := g }, [])

theorem Aside.append {r : Renderer} {a b : List Event} (h1 : Aside r a) (h2 : Aside r b) : Aside r (a ++ b) := by
  intro f p rest hf
  obtain ⟨g, p', hg, hn1, hr1, e1⟩ := h1 f p rest hf
  obtain ⟨g2, p2, hg2, hn2, hr2, e2⟩ := h2 g p' rest hg
  refine ⟨g2, p2, hg2, hn2.trans hn1, hr2.trans hr1, ?_⟩
  rw [pushEvents_app, e1]
  simp only [bind, Except.bind, e2, pure, Except.pure, List.append_nil]

theorem Aside.one {r : Renderer} {e : Event} (h1 : ∀ l a, e ≠ .start (.footnote l) a) (h2 : ∀ l, e ≠ .end (.footnote l)) (h3 : e ≠ .end .document) : Aside r [e] := by
  intro f p rest hf
  refine ⟨{ f with open_ := (p.1, p.2 ++ [e]) :: rest }, (p.1, p.2 ++ [e]), rfl, rfl, rfl, ?_⟩
  have hfil : ({ r with footnotes := f } : Renderer).filter e = some { r with footnotes := { f with open_ := (p.1, p.2 ++ [e]) :: rest } } := by
    unfold Renderer.filter
    cases e with
    | start c a => cases c <;> first | exact absurd rfl (h1 _ _) | simp [hf]
    | «end» c => cases c <;> first | exact absurd rfl (h2 _) | simp [hf]
    | _ => simp [hf]
  simp only [Renderer.pushEvents]
  rw [push_step _ _ h3]
  simp only [Renderer.step, hfil, bind, Except.bind, pure, Except.pure, List.append_nil]

theorem push_note_start (r : Renderer) (f : Footnotes) (l : Bytes) (attrs : Attr.Attributes) :
    ({ r with footnotes := f } : Renderer).pushEvents [.start (.footnote l) attrs] = .ok ({ r with footnotes := { f with open_ := (l, []) :: f.open_ } }, []) := by
  simp only [Renderer.pushEvents]
  rw [push_step _ _ (by simp)]
  simp only [Renderer.step, Renderer.filter, bind, Except.bind, pure, Except.pure, List.append_nil]

theorem push_note_end (r : Renderer) (f : Footnotes) (l : Bytes) (p : Bytes × List Event) (rest : List (Bytes × List Event)) (hf : f.open_ = p :: rest) :
    ({ r with footnotes := f } : Renderer).pushEvents [.end (.footnote l)] = .ok ({ r with footnotes := { f with open_ := rest, events := mapInsert f.events p.1 p.2 } }, []) := by
  simp only [Renderer.pushEvents]
  rw [push_step _ _ (by simp)]
  simp only [Renderer.step, Renderer.filter, hf, bind, Except.bind, pure, Except.pure, List.append_nil]

mutual
theorem definition_aside (n : Node) (r : Renderer) (h : n.definitionOk = true) : Aside r n.events := by
  match n with
  | .leaf e => exact Aside.one (by rintro l a rfl; simp [Node.definitionOk] at h) (by rintro l rfl; simp [Node.definitionOk] at h) (by rintro rfl; simp [Node.definitionOk] at h)
  | .elem c attrs kids =>
    have hk : nodesDefinitionOk kids = true := by cases c <;> simp [Node.definitionOk] at h <;> exact h
    have h1 : ∀ l, c ≠ .footnote l := by rintro l rfl; simp [Node.definitionOk] at h
    have h4 : c ≠ .document := by rintro rfl; simp [Node.definitionOk] at h
    exact (Aside.one (fun l a e => by injection e with e _; exact h1 l e) (by simp) (by simp)).append
      ((definitions_aside kids r hk).append (Aside.one (by simp) (fun l e => by injection e with e; exact h1 l e) (fun e => by injection e with e; exact h4 e)))
theorem definitions_aside (ns : List Node) (r : Renderer) (h : nodesDefinitionOk ns = true) : Aside r (nodeEvents ns) := by
  match ns with
  | [] => exact fun f p rest hf => ⟨f, p, hf, rfl, rfl, rfl⟩
  | n :: ns =>
    simp only [nodesDefinitionOk, Bool.and_eq_true] at h
    exact (definition_aside n r h.1).append (definitions_aside ns r h.2)
end

mutual
theorem image_aside (n : Node) (r : Renderer) (h : n.imageOk = true) : Aside r n.events := by
  match n with
  | .leaf e =>
    simp only [Node.imageOk, Bool.and_eq_true] at h
    exact Aside.one (by rintro l a rfl; simp [Event.simple] at h) (by rintro l rfl; simp [Event.simple] at h) (by rintro rfl; simp [Event.simple] at h)
  | .elem c attrs kids =>
    simp only [Node.imageOk, Bool.and_eq_true, Bool.not_eq_true', bne_iff_ne, ne_eq] at h
    obtain ⟨⟨hb, hd⟩, hk⟩ := h
    have h1 : ∀ l, c ≠ .footnote l := by rintro l rfl; simp [isBlock] at hb
    exact (Aside.one (fun l a e => by injection e with e _; exact h1 l e) (by simp) (by simp)).append
      ((images_aside kids r hk).append (Aside.one (by simp) (fun l e => by injection e with e; exact h1 l e) (fun e => by injection e with e; exact hd e)))
theorem images_aside (ns : List Node) (r : Renderer) (h : nodesImageOk ns = true) : Aside r (nodeEvents ns) := by
  match ns with
  | [] => exact fun f p rest hf => ⟨f, p, hf, rfl, rfl, rfl⟩
  | n :: ns =>
    simp only [nodesImageOk, Bool.and_eq_true] at h
    exact (image_aside n r h.1).append (images_aside ns r h.2)
end

theorem texts_aside (ns : List Node) (r : Renderer) (h : ns.all Node.isStr = true) : Aside r (nodeEvents ns) := by
  induction ns with
  | nil => exact fun f p rest hf => ⟨f, p, hf, rfl, rfl, rfl⟩
  | cons n ns ih =>
    simp only [List.all_cons, Bool.and_eq_true] at h
    cases n with
    | elem => simp [Node.isStr] at h
    | leaf e =>
      refine Aside.append (Aside.one ?_ ?_ ?_) (ih h.2) <;> (intros; rintro rfl; simp [Node.isStr] at h)

mutual
theorem node_aside (n : Node) (r : Renderer) (h : n.covered = true) : Aside r n.events := by
  match n with
  | .leaf e =>
    simp only [Node.covered] at h
    exact Aside.one (by rintro l a rfl; simp [Event.simple] at h) (by rintro l rfl; simp [Event.simple] at h) (by rintro rfl; simp [Event.simple] at h)
  | .elem c attrs kids =>
    simp only [Node.covered, Bool.and_eq_true] at h
    obtain ⟨_, h⟩ := h
    by_cases hn : ∃ l, c = .footnote l
    · obtain ⟨l, rfl⟩ := hn
      have ih := nodes_aside kids r h
      intro f p rest hf
      obtain ⟨g, p', hg, hn1, hr1, e1⟩ := ih { f with open_ := (l, []) :: f.open_ } (l, []) f.open_ rfl
      refine ⟨{ g with open_ := f.open_, events := mapInsert g.events p'.1 p'.2 }, p, hf, hn1, hr1, ?_⟩
      show ({ r with footnotes := f } : Renderer).pushEvents ([.start (.footnote l) attrs] ++ (nodeEvents kids ++ [.end (.footnote l)])) = _
      rw [pushEvents_app, push_note_start]
      simp only [bind, Except.bind, pushEvents_app, e1, push_note_end r g l p' f.open_ hg, pure, Except.pure, List.append_nil]
    · have h1 : ∀ l, c ≠ .footnote l := fun l e => hn ⟨l, e⟩
      have h4 : c ≠ .document := by rintro rfl; simp at h
      have hk : Aside r (nodeEvents kids) := by
        cases c with
        | document => simp at h
        | footnote l => exact absurd rfl (h1 l)
        | linkDefinition l => exact definitions_aside kids r h
        | rawBlock f => exact texts_aside kids r h
        | rawInline f => exact texts_aside kids r h
        | image s t => exact images_aside kids r h
        | _ => exact nodes_aside kids r h
      exact (Aside.one (fun l a e => by injection e with e _; exact h1 l e) (by simp) (by simp)).append
        (hk.append (Aside.one (by simp) (fun l e => by injection e with e; exact h1 l e) (fun e => by injection e with e; exact h4 e)))
theorem nodes_aside (ns : List Node) (r : Renderer) (h : nodesCovered ns = true) : Aside r (nodeEvents ns) := by
  match ns with
  | [] => exact fun f p rest hf => ⟨f, p, hf, rfl, rfl, rfl⟩
  | n :: ns =>
    simp only [nodesCovered, Bool.and_eq_true] at h
    exact (node_aside n r h.1).append (nodes_aside ns r h.2)
end

/-! ## Nodes -/

theorem texts_refs (ns : List Node) (h : ns.all Node.isStr = true) : nodeRefs ns = [] := by
  induction ns with
  | nil => rfl
  | cons n ns ih =>
    simp only [List.all_cons, Bool.and_eq_true] at h
    cases n with
    | elem => simp [Node.isStr] at h
    | leaf e =>
      have h2 := ih h.2
      cases e <;> first | (simp [Node.isStr] at h; done) | simp [nodeRefs, Node.refs, h2]

mutual
/-- No footnotes in it. -/
def Node.noNotes : Node → Bool
  | .leaf _ => true
  | .elem (.footnote _) _ _ => false
  | .elem _ _ kids => nodesNoNotes kids
def nodesNoNotes : List Node → Bool
  | [] => true
  | n :: ns => n.noNotes && nodesNoNotes ns
end

theorem elem_noNotes {c : Container} {attrs : Attr.Attributes} {kids : List Node} (h : (Node.elem c attrs kids).noNotes = true) : (∀ l, c ≠ .footnote l) ∧ nodesNoNotes kids = true := by
  cases c <;> first | (simp [Node.noNotes] at h; done) | exact ⟨by simp, by simpa [Node.noNotes] using h⟩

mutual
theorem node_ok {Ls : List Bytes} {m : Nat} (n : Node) (r : Renderer) {d : Nat} {tight : Bool} (h : Ready m r d tight) (hn : n.covered = true) (hm : m ≠ 0 → n.noNotes = true) :
    Shows Ls m r n.events { r with firstLine := r.firstLine && n.hidden } n.refs (n.html r.indent Ls r.firstLine tight d) := by
  match n with
  | .leaf e =>
    have := leaf_ok (Ls := Ls) r e h.depth h.calm h.img hn
    simp only [Node.hidden, Bool.and_false, Node.html]
    exact this
  | .elem c attrs kids =>
    simp only [Node.covered, Bool.and_eq_true] at hn
    obtain ⟨hcl, hn⟩ := hn
    have hmk : m ≠ 0 → nodesNoNotes kids = true := fun hm0 => (elem_noNotes (hm hm0)).2
    have plain : hasTags c = true → nodesCovered kids = true → (c = .paragraph → tight = false) → (Node.elem c attrs kids).hidden = false →
        (Node.elem c attrs kids).html r.indent Ls r.firstLine tight d = (if isBlock c then layLine r.indent r.firstLine d else []) ++ startTag c attrs ++ innerStart (layLine r.indent r.firstLine (if isBlockContainer c then d + 1 else d)) c
          ++ nodeHtml r.indent Ls false (tightIn tight c) (if isBlockContainer c then d + 1 else d) kids ++ (if isBlockContainer c then layLine r.indent false d else []) ++ innerEnd c ++ endTag c →
        Shows Ls m r (Node.elem c attrs kids).events { r with firstLine := r.firstLine && (Node.elem c attrs kids).hidden } (Node.elem c attrs kids).refs ((Node.elem c attrs kids).html r.indent Ls r.firstLine tight d) := by
      intro h1 h2 h3 h4 h5
      rw [h4, h5, Bool.and_false, elem_refs (notfoot h1).1 (notfoot h1).2.1]
      exact elem_ok h c attrs kids h1 hcl h3 (nodes_ok kids (inside r c) (h.inside c) rfl h2 hmk)
    cases c with
    | document => simp at hn
    | footnote l =>
      cases m with
      | succ m => exact absurd (hm (Nat.succ_ne_zero _)) (by simp [Node.noNotes])
      | zero =>
        intro f ho hnum _
        obtain ⟨g, p', hg, hn1, hr1, e1⟩ := nodes_aside kids r hn { f with open_ := (l, []) :: f.open_ } (l, []) f.open_ rfl
        have e2 : ({ r with footnotes := f } : Renderer).pushEvents (Node.elem (.footnote l) attrs kids).events
            = .ok ({ r with footnotes := { g with open_ := f.open_, events := mapInsert g.events p'.1 p'.2 } }, []) := by
          show ({ r with footnotes := f } : Renderer).pushEvents ([.start (.footnote l) attrs] ++ (nodeEvents kids ++ [.end (.footnote l)])) = _
          rw [pushEvents_app, push_note_start]
          simp only [bind, Except.bind, pushEvents_app, e1, push_note_end r g l p' f.open_ hg, pure, Except.pure, List.append_nil]
        refine ⟨{ g with open_ := f.open_, events := mapInsert g.events p'.1 p'.2 }, ho, hn1.trans hnum, hr1, ⟨[], ?_, by simp [Node.html]⟩⟩
        simp only [Node.hidden, Bool.and_true]
        exact e2
    | linkDefinition l =>
      simp only [Node.hidden, Bool.and_true, Node.html, Node.refs]
      exact definition_ok r h.calm.ignore l attrs _ (definitions_in kids hn)
    | rawBlock f =>
      have hr : (Node.elem (.rawBlock f) attrs kids).refs = [] := by rw [elem_refs (by simp) (by simp)]; exact texts_refs kids hn
      rw [hr]
      simpa [Node.hidden, Node.html, isBlock] using raw_ok h (.rawBlock f) f (.inl rfl) attrs kids hn
    | rawInline f =>
      have hr : (Node.elem (.rawInline f) attrs kids).refs = [] := by rw [elem_refs (by simp) (by simp)]; exact texts_refs kids hn
      rw [hr]
      simpa [Node.hidden, Node.html, isBlock] using raw_ok h (.rawInline f) f (.inr rfl) attrs kids hn
    | image src ty => simpa [Node.hidden, Node.html, Node.refs] using image_ok h src ty attrs kids hn
    | paragraph =>
      cases tight with
      | false => exact plain rfl hn (fun _ => rfl) rfl (by simp [Node.html, isBlock, isBlockContainer, innerStart, innerEnd, tightIn])
      | true =>
        have hf : r.firstLine = false := by
          cases hf : r.firstLine with
          | false => rfl
          | true => exact absurd (h.first hf) (by simp)
        have hr : ({ r with firstLine := false } : Renderer) = r := by rw [← hf]
        have ht := h.tig.1 rfl
        have s1 : Shows Ls m r [.start .paragraph attrs] r [] (layLine r.indent r.firstLine d) := by
          refine Shows.one h.calm.ignore (by simp) (by simp) (by simp) (by simp) (by simp) (by simp) (by simp) ?_
          intro f _
          obtain ⟨hb1, hb2⟩ := block_zero ({ r with footnotes := f } : Renderer) (d := d) h.depth
          refine ⟨_, ?_, hb2⟩
          simp only [Renderer.core, Renderer.start, Renderer.startBlock, isBlock, isBlockContainer, if_true, Bool.false_eq_true, if_false]
          rw [hb1]
          simp [h.img, Renderer.openTag, ht]
        have s2 := nodes_ok (Ls := Ls) kids r h hf hn hmk
        have s3 : Shows Ls m r [.end .paragraph] r [] [] := by
          refine Shows.one h.calm.ignore (by simp) (by simp) (by simp) (by simp) (by simp) (fun _ => ht) (by simp) ?_
          intro f _
          refine ⟨[], ?_, rfl⟩
          simp [Renderer.core, Renderer.close, Renderer.closeBlock, isBlockContainer, h.img, Renderer.closeTag, ht]
        simp only [Node.hidden, Bool.and_false, hr]
        exact (s1.cons (s2.append s3)).out (by simp [Node.html]) (by simp [Node.refs])
    | codeBlock l => exact plain rfl hn (by simp) rfl (by simp [Node.html, isBlock, isBlockContainer, innerStart, innerEnd, tightIn])
    | math x => exact plain rfl hn (by simp) rfl (by cases x <;> simp [Node.html, isBlock, isBlockContainer, innerStart, innerEnd, tightIn])
    | taskListItem x => exact plain rfl hn (by simp) rfl (by cases x <;> simp [Node.html, isBlock, isBlockContainer, innerStart, innerEnd, tightIn])
    | _ => exact plain rfl hn (by simp) rfl (by simp [Node.html, isBlock, isBlockContainer, innerStart, innerEnd, tightIn])
theorem nodes_ok {Ls : List Bytes} {m : Nat} (ns : List Node) (r : Renderer) {d : Nat} {tight : Bool} (h : Ready m r d tight) (hf : r.firstLine = false) (hn : nodesCovered ns = true)
    (hm : m ≠ 0 → nodesNoNotes ns = true) : Shows Ls m r (nodeEvents ns) r (nodeRefs ns) (nodeHtml r.indent Ls false tight d ns) := by
  match ns with
  | [] => exact Shows.nil Ls m r
  | n :: ns =>
    simp only [nodesCovered, Bool.and_eq_true] at hn
    simp only [nodesNoNotes, Bool.and_eq_true] at hm
    have s1 := node_ok (Ls := Ls) n r h hn.1 (fun e => (hm e).1)
    rw [hf, Bool.false_and] at s1
    have hr : ({ r with firstLine := false } : Renderer) = r := by rw [← hf]
    rw [hr] at s1
    have s2 := nodes_ok (Ls := Ls) ns r h hf hn.2 (fun e => (hm e).2)
    exact (s1.append s2).out (by simp [nodeHtml]) rfl
end

theorem nodes_first {Ls : List Bytes} {m : Nat} (ns : List Node) (r : Renderer) {d : Nat} {tight : Bool} (h : Ready m r d tight) (hn : nodesCovered ns = true) (hm : m ≠ 0 → nodesNoNotes ns = true) :
    Shows Ls m r (nodeEvents ns) { r with firstLine := r.firstLine && ns.all Node.hidden } (nodeRefs ns) (nodeHtml r.indent Ls r.firstLine tight d ns) := by
  induction ns generalizing r with
  | nil => simp only [List.all_nil, Bool.and_true]; exact Shows.nil Ls m r
  | cons n ns ih =>
    simp only [nodesCovered, Bool.and_eq_true] at hn
    simp only [nodesNoNotes, Bool.and_eq_true] at hm
    have s1 := node_ok (Ls := Ls) n r h hn.1 (fun e => (hm e).1)
    have s2 := ih _ (h.after (r.firstLine && n.hidden) (fun e => by simp only [Bool.and_eq_true] at e; exact e.1)) hn.2 (fun e => (hm e).2)
    simp only [List.all_cons, ← Bool.and_assoc]
    exact (s1.append s2).out (by simp [nodeHtml]) rfl

theorem hidden_refs (ns : List Node) (h : ns.all Node.hidden = true) : nodeRefs ns = [] := by
  induction ns with
  | nil => rfl
  | cons n ns ih =>
    simp only [List.all_cons, Bool.and_eq_true] at h
    simp only [nodeRefs, ih h.2, List.append_nil]
    cases n with
    | leaf e => simp [Node.hidden] at h
    | elem c a k => cases c <;> first | rfl | (simp [Node.hidden] at h; done)

end Jotdown.Html
