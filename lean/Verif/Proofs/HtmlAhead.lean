import Verif.Proofs.HtmlFoot
/-! # Rendering with the order of the notes known in advance -/
namespace Jotdown.Html
open Jotdown

theorem core_swap_other {r q : Renderer} {g : Footnotes} {e : Event} {o : Out}
    (hne : ∀ l, e ≠ .footnoteReference l) (hn : g.number = r.footnotes.number)
    (h : r.core e = .ok (q, o)) :
    ({ r with footnotes := g }).core e = .ok ({ q with footnotes := g }, o) := by
  cases e with
  | start c a =>
    simp only [Renderer.core] at h ⊢
    rw [start_swap, h]; rfl
  | «end» c =>
    simp only [Renderer.core] at h ⊢
    rw [close_swap _ _ _ hn, h]; rfl
  | footnoteReference l => exact absurd rfl (hne l)
  | hardbreak =>
    simp only [Renderer.core, Except.ok.injEq, Prod.mk.injEq] at h ⊢
    obtain ⟨rfl, rfl⟩ := h
    simp [block_swap]
  | thematicBreak a =>
    simp only [Renderer.core, Except.ok.injEq, Prod.mk.injEq] at h ⊢
    obtain ⟨rfl, rfl⟩ := h
    simp [block_swap]
  | _ =>
    simp only [Renderer.core, Except.ok.injEq, Prod.mk.injEq] at h ⊢
    obtain ⟨rfl, rfl⟩ := h
    exact ⟨rfl, rfl⟩

/-- `r'` knows the whole order `Ls` already. -/
structure Ahead (Ls : List Bytes) (r r' : Renderer) : Prop where
  eq : r' = { r with footnotes := r'.footnotes }
  refs : r'.footnotes.references = Ls
  pre : r.footnotes.references <+: Ls
  num : r'.footnotes.number = r.footnotes.number
  opn : r'.footnotes.open_ = r.footnotes.open_

theorem labelPos_append {l : Bytes} {a b : List Bytes} {i : Nat} (h : labelPos l a = some i) :
    labelPos l (a ++ b) = some i := by
  induction a generalizing i with
  | nil => simp [labelPos] at h
  | cons x a ih =>
    simp only [List.cons_append, labelPos] at h ⊢
    split
    · rename_i hx; simpa [hx] using h
    · rename_i hx
      rw [if_neg hx] at h
      cases h1 : labelPos l a with
      | none => rw [h1] at h; simp at h
      | some k => rw [h1] at h; rw [ih h1]; exact h

theorem labelPos_new {l : Bytes} {a b : List Bytes} (h : labelPos l a = none) :
    labelPos l (a ++ l :: b) = some a.length := by
  induction a with
  | nil => simp [labelPos]
  | cons x a ih =>
    simp only [labelPos] at h
    split at h
    · simp at h
    · rename_i hx
      have : labelPos l a = none := by simpa using h
      simp [labelPos, hx, ih this]

/-- The number of a reference is that in the final order. -/
theorem reference_ahead {f g : Footnotes} {Ls : List Bytes} {l : Bytes} (hg : g.references = Ls)
    (hp : (f.reference l).2.references <+: Ls) :
    (g.reference l) = ((f.reference l).1, g) := by
  unfold Footnotes.reference at *
  rw [hg]
  cases h : labelPos l f.references with
  | some i =>
    rw [h] at hp
    obtain ⟨t, rfl⟩ := hp
    simp [labelPos_append h]
  | none =>
    rw [h] at hp
    obtain ⟨t, rfl⟩ := hp
    simp [labelPos_new h]

theorem core_ahead {Ls : List Bytes} {r r' q : Renderer} {e : Event} {o : Out} (ht : Ahead Ls r r')
    (h : r.core e = .ok (q, o)) (hp : q.footnotes.references <+: Ls) :
    ∃ q', r'.core e = .ok (q', o) ∧ Ahead Ls q q' := by
  have hc := core_footnotes h
  have hfa := footAfter_work r.footnotes e
  have hnum : (footAfter r.footnotes e).number = r.footnotes.number := by
    unfold footAfter Footnotes.reference
    split
    · split <;> rfl
    · rfl
  by_cases hr : ∃ l, e = .footnoteReference l
  · obtain ⟨l, rfl⟩ := hr
    rw [hc.1] at hp
    have hra := reference_ahead (l := l) ht.refs hp
    have hri : r'.imgAltText = r.imgAltText := by rw [ht.eq]
    simp only [Renderer.core, Except.ok.injEq, Prod.mk.injEq] at h ⊢
    obtain ⟨rfl, rfl⟩ := h
    refine ⟨{ r' with firstLine := false }, ⟨?_, ?_⟩, ?_⟩
    · simp only [Renderer.footnoteReference, hra]
    · simp only [Renderer.footnoteReference, hra, hri]
    · refine ⟨?_, ht.refs, hp, ?_, ?_⟩
      · rw [ht.eq]; rfl
      · show r'.footnotes.number = (footAfter r.footnotes (.footnoteReference l)).number
        rw [hnum]; exact ht.num
      · show r'.footnotes.open_ = (footAfter r.footnotes (.footnoteReference l)).open_
        rw [hfa.2.1]; exact ht.opn
  · have hne : ∀ l, e ≠ .footnoteReference l := fun l h => hr ⟨l, h⟩
    have hfe : footAfter r.footnotes e = r.footnotes := by
      cases e <;> first | rfl | exact absurd rfl (hne _)
    refine ⟨{ q with footnotes := r'.footnotes }, ?_, ?_⟩
    · have := core_swap_other (g := r'.footnotes) hne ht.num h
      rw [← ht.eq] at this; exact this
    · refine ⟨rfl, ht.refs, hp, ?_, ?_⟩
      · rw [hc.1, hfe]; exact ht.num
      · rw [hc.1, hfe]; exact ht.opn

theorem step_ahead {Ls : List Bytes} {r r' q : Renderer} {e : Event} {o : Out} (ht : Ahead Ls r r')
    (h : r.step e = .ok (q, o)) (hp : q.footnotes.references <+: Ls) :
    ∃ q', r'.step e = .ok (q', o) ∧ Ahead Ls q q' := by
  have hi : r'.ignore = r.ignore := by rw [ht.eq]
  have hig : ∀ b, Ahead Ls { r with ignore := b } { r' with ignore := b } := by
    intro b
    refine ⟨?_, ht.refs, ht.pre, ht.num, ht.opn⟩
    have := ht.eq
    rw [this]
  unfold Renderer.step at h ⊢
  rcases filter_cases r e with ⟨l, a, rfl, hf⟩ | ⟨l, l', evs, rest, rfl, ho, hf⟩ | ⟨l', evs, rest, hn, ho, hf⟩ | ⟨ho, h1, hf⟩
  · rw [hf] at h
    simp only [Except.ok.injEq, Prod.mk.injEq] at h
    obtain ⟨rfl, rfl⟩ := h
    refine ⟨{ r' with footnotes := { r'.footnotes with open_ := (l, []) :: r'.footnotes.open_ } },
      by simp only [Renderer.filter], ?_, ht.refs, ht.pre, ht.num, ?_⟩
    · rw [ht.eq]
    · simp only [ht.opn]
  · have ho' : r'.footnotes.open_ = (l', evs) :: rest := by rw [ht.opn, ho]
    rw [hf] at h
    simp only [Except.ok.injEq, Prod.mk.injEq] at h
    obtain ⟨rfl, rfl⟩ := h
    refine ⟨{ r' with footnotes := { r'.footnotes with open_ := rest, events := mapInsert r'.footnotes.events l' evs } },
      by simp only [Renderer.filter, ho'], ?_, ht.refs, ht.pre, ht.num, rfl⟩
    rw [ht.eq]
  · have ho' : r'.footnotes.open_ = (l', evs) :: rest := by rw [ht.opn, ho]
    rw [hf] at h
    simp only [Except.ok.injEq, Prod.mk.injEq] at h
    obtain ⟨rfl, rfl⟩ := h
    rcases filter_cases r' e with ⟨l, a, rfl, _⟩ | ⟨l, l', evs, rest, rfl, _, _⟩ | ⟨l2, evs2, rest2, _, ho2, hf2⟩ | ⟨ho2, _⟩
    · exact absurd rfl (hn.1 _ _)
    · exact absurd rfl (hn.2 _)
    · rw [ho'] at ho2
      simp only [List.cons.injEq, Prod.mk.injEq] at ho2
      obtain ⟨⟨rfl, rfl⟩, rfl⟩ := ho2
      rw [hf2]
      refine ⟨_, rfl, ?_, ht.refs, ht.pre, ht.num, rfl⟩
      rw [ht.eq]
    · rw [ho'] at ho2; simp at ho2
  · have ho' : r'.footnotes.open_ = [] := by rw [ht.opn, ho]
    rcases filter_cases r' e with ⟨l, a, rfl, _⟩ | ⟨l, l', evs, rest, _, ho2, _⟩ | ⟨l2, evs2, rest2, _, ho2, hf2⟩ | ⟨_, _, hf'⟩
    · exact absurd rfl (h1 _ _)
    · rw [ho'] at ho2; simp at ho2
    · rw [ho'] at ho2; simp at ho2
    · rcases hf with ⟨l, a, rfl, hf⟩ | ⟨l, rfl, hf⟩ | ⟨h2, h3, hf⟩
      · rcases hf' with ⟨l, a, _, hf'⟩ | ⟨l, h, _⟩ | ⟨h, _, _⟩
        · rw [hf] at h; rw [hf']
          simp only [Except.ok.injEq, Prod.mk.injEq] at h
          obtain ⟨rfl, rfl⟩ := h
          exact ⟨_, rfl, hig _⟩
        · simp at h
        · exact absurd rfl (h _ _)
      · rcases hf' with ⟨l, a, h, _⟩ | ⟨l, _, hf'⟩ | ⟨_, h, _⟩
        · simp at h
        · rw [hf] at h; rw [hf']
          simp only [Except.ok.injEq, Prod.mk.injEq] at h
          obtain ⟨rfl, rfl⟩ := h
          exact ⟨_, rfl, hig _⟩
        · exact absurd rfl (h _)
      · rcases hf' with ⟨l, a, h, _⟩ | ⟨l, h, hf'⟩ | ⟨_, _, hf'⟩
        · exact absurd h (h2 _ _)
        · exact absurd h (h3 _)
        · rw [hf] at h; rw [hf', hi]
          cases hig2 : r.ignore
          · rw [hig2] at h
            simp only [Bool.false_eq_true, if_false] at h ⊢
            exact core_ahead ht h hp
          · rw [hig2] at h
            simp only [if_true, Except.ok.injEq, Prod.mk.injEq] at h ⊢
            obtain ⟨rfl, rfl⟩ := h
            exact ⟨r', ⟨rfl, rfl⟩, ht⟩

/-! ## References only grow -/

theorem footStep_prefix (x : Footnotes × Bool) (e : Event) : x.1.references <+: (footStep x e).1.references := by
  unfold footStep
  split
  · exact List.prefix_refl _
  · split
    · split
      · exact List.prefix_refl _
      · exact List.prefix_refl _
    · split
      · exact List.prefix_refl _
      · exact List.prefix_refl _
      · split
        · exact List.prefix_refl _
        · simp only [reference_refs]; exact prefix_addRef _ _
      · exact List.prefix_refl _

theorem step_prefix {r q : Renderer} {e : Event} {o : Out} (h : r.step e = .ok (q, o)) :
    r.footnotes.references <+: q.footnotes.references := by
  have := footStep_prefix (r.footnotes, r.ignore) e
  rw [← step_foot h] at this; exact this

theorem push_cons {r q : Renderer} {e : Event} {es : List Event} {o : Out} (h : r.pushEvents (e :: es) = .ok (q, o)) :
    ∃ r1 o1 o2, r.pushEvent e = .ok (r1, o1) ∧ r1.pushEvents es = .ok (q, o2) ∧ o = o1 ++ o2 := by
  unfold Renderer.pushEvents at h
  obtain ⟨⟨r1, o1⟩, h1, h⟩ := bind_ok h
  obtain ⟨⟨r2, o2⟩, h2, h⟩ := bind_ok h
  simp only [pure, Except.pure, Except.ok.injEq, Prod.mk.injEq] at h
  obtain ⟨rfl, rfl⟩ := h
  exact ⟨r1, o1, o2, h1, h2, rfl⟩

theorem push_foot (es : List Event) : ∀ {r q : Renderer} {o : Out}, (∀ e ∈ es, e ≠ .end .document) →
    r.pushEvents es = .ok (q, o) →
    (q.footnotes, q.ignore) = es.foldl footStep (r.footnotes, r.ignore) ∧
      r.footnotes.references <+: q.footnotes.references := by
  induction es with
  | nil =>
    intro r q o _ h
    simp only [Renderer.pushEvents, Except.ok.injEq, Prod.mk.injEq] at h
    rw [← h.1]; exact ⟨rfl, List.prefix_refl _⟩
  | cons e es ih =>
    intro r q o hd h
    obtain ⟨r1, o1, o2, h1, h2, rfl⟩ := push_cons h
    rw [push_step _ _ (hd e (List.mem_cons_self ..))] at h1
    obtain ⟨g1, g2⟩ := ih (fun x hx => hd x (List.mem_cons_of_mem _ hx)) h2
    refine ⟨?_, (step_prefix h1).trans g2⟩
    rw [g1, step_foot h1]; rfl

theorem push_ahead (es : List Event) {Ls : List Bytes} : ∀ {r r' q : Renderer} {o : Out}, (∀ e ∈ es, e ≠ .end .document) →
    r.pushEvents es = .ok (q, o) → q.footnotes.references <+: Ls → Ahead Ls r r' →
    ∃ q', r'.pushEvents es = .ok (q', o) ∧ Ahead Ls q q' := by
  induction es with
  | nil =>
    intro r r' q o _ h _ ht
    simp only [Renderer.pushEvents, Except.ok.injEq, Prod.mk.injEq] at h
    obtain ⟨rfl, rfl⟩ := h
    exact ⟨r', rfl, ht⟩
  | cons e es ih =>
    intro r r' q o hd h hp ht
    obtain ⟨r1, o1, o2, h1, h2, rfl⟩ := push_cons h
    have hde := hd e (List.mem_cons_self ..)
    have hds : ∀ x ∈ es, x ≠ .end .document := fun x hx => hd x (List.mem_cons_of_mem _ hx)
    rw [push_step _ _ hde] at h1
    obtain ⟨q1, g1, g2⟩ := step_ahead ht h1 ((push_foot es hds h2).2.trans hp)
    obtain ⟨q2, k1, k2⟩ := ih hds h2 hp g2
    refine ⟨q2, ?_, k2⟩
    simp only [Renderer.pushEvents, push_step _ _ hde, g1, k1, bind, Except.bind, pure, Except.pure]

/-! ## The body of a note -/

/-- The write calls for the events of a note, in terms of `push_event`: blank lines and escapes are
skipped, and the end tag of a paragraph is written only when something follows it. -/
def noteBody (r : Renderer) : List Event → Bool → R (Renderer × Bool × Out)
  | [], u => .ok (r, u, [])
  | e :: es, u =>
    if e = .blankline ∨ e = .escape then noteBody r es u
    else do
      let x ← r.pushEvent e
      let y ← noteBody x.1 es (decide (e = .end .paragraph ∧ x.1.listTightness.head? ≠ some true))
      pure (y.1, y.2.1, (if u then [b! "</p>"] else []) ++ x.2 ++ y.2.2)

theorem noteBody_of_note (fuel : Nat) : ∀ (evs : List Event) (r : Renderer) (u : Bool) (x : Renderer × Bool × Out),
    (∀ e ∈ evs, e ≠ .end .document) → Renderer.note fuel r evs u = .ok x → noteBody r evs u = .ok x := by
  induction fuel with
  | zero => intro evs r u x _ h; simp [Renderer.note] at h
  | succ fuel ih =>
    intro evs r u x hd h
    cases evs with
    | nil => simpa [Renderer.note, noteBody] using h
    | cons e es =>
      have hde := hd e (List.mem_cons_self ..)
      have hds : ∀ x ∈ es, x ≠ .end .document := fun x hx => hd x (List.mem_cons_of_mem _ hx)
      simp only [Renderer.note] at h
      unfold noteBody
      by_cases hb : e = .blankline ∨ e = .escape
      · rw [if_pos hb] at h ⊢; exact ih es r u x hds h
      · rw [if_neg hb] at h ⊢
        obtain ⟨y, h1, h⟩ := bind_ok h
        obtain ⟨z, h2, h⟩ := bind_ok h
        have hp : r.pushEvent e = .ok y := by
          rw [push_step _ _ hde]
          cases fuel with
          | zero => simp [Renderer.event] at h1
          | succ fuel => rw [event_step _ _ _ hde] at h1; exact h1
        simp only [hp, bind, Except.bind, ih es _ _ _ hds h2]
        exact h

theorem noteBody_cons {r q : Renderer} {e : Event} {es : List Event} {u u' : Bool} {o : Out}
    (hb : ¬ (e = .blankline ∨ e = .escape)) (h : noteBody r (e :: es) u = .ok (q, u', o)) :
    ∃ r1 o1 o2, r.pushEvent e = .ok (r1, o1) ∧
      noteBody r1 es (decide (e = .end .paragraph ∧ r1.listTightness.head? ≠ some true)) = .ok (q, u', o2) ∧
      o = (if u then [b! "</p>"] else []) ++ o1 ++ o2 := by
  unfold noteBody at h
  rw [if_neg hb] at h
  obtain ⟨⟨r1, o1⟩, h1, h⟩ := bind_ok h
  obtain ⟨⟨r2, u2, o2⟩, h2, h⟩ := bind_ok h
  simp only [pure, Except.pure, Except.ok.injEq, Prod.mk.injEq] at h
  obtain ⟨rfl, rfl, rfl⟩ := h
  exact ⟨r1, o1, o2, h1, h2, rfl⟩

/-- What the events of a note do to the footnotes. -/
theorem noteBody_foot (evs : List Event) : ∀ {r q : Renderer} {u u' : Bool} {o : Out},
    (∀ e ∈ evs, NoFoot e ∧ e ≠ .end .document) → r.footnotes.open_ = [] →
    noteBody r evs u = .ok (q, u', o) →
    (q.footnotes, q.ignore) = evs.foldl footStep (r.footnotes, r.ignore) ∧ q.footnotes.open_ = [] ∧
      q.footnotes.events = r.footnotes.events ∧ q.footnotes.number = r.footnotes.number ∧
      r.footnotes.references <+: q.footnotes.references := by
  induction evs with
  | nil =>
    intro r q u u' o _ ho h
    simp only [noteBody, Except.ok.injEq, Prod.mk.injEq] at h
    rw [← h.1]; exact ⟨rfl, ho, rfl, rfl, List.prefix_refl _⟩
  | cons e es ih =>
    intro r q u u' o hd ho h
    have hde := hd e (List.mem_cons_self ..)
    have hds : ∀ x ∈ es, NoFoot x ∧ x ≠ .end .document := fun x hx => hd x (List.mem_cons_of_mem _ hx)
    by_cases hb : e = .blankline ∨ e = .escape
    · unfold noteBody at h
      rw [if_pos hb] at h
      obtain ⟨g1, g2⟩ := ih hds ho h
      refine ⟨?_, g2⟩
      rw [g1]
      rcases hb with rfl | rfl <;> simp [footStep, ho]
    · obtain ⟨r1, o1, o2, h1, h2, _⟩ := noteBody_cons hb h
      rw [push_step _ _ hde.2] at h1
      have hs := step_foot h1
      have hm := footStep_main r.footnotes r.ignore e ho hde.1.1 []
      rw [← hs] at hm
      have hpre := step_prefix h1
      obtain ⟨g1, g2, g3, g4, g5⟩ := ih hds hm.1 h2
      refine ⟨?_, g2, by rw [g3, hm.2.1], by rw [g4, hm.2.2.1], hpre.trans g5⟩
      rw [g1, hs]; rfl

theorem noteBody_ahead (evs : List Event) {Ls : List Bytes} : ∀ {r r' q : Renderer} {u u' : Bool} {o : Out},
    (∀ e ∈ evs, NoFoot e ∧ e ≠ .end .document) → r.footnotes.open_ = [] →
    noteBody r evs u = .ok (q, u', o) → q.footnotes.references <+: Ls → Ahead Ls r r' →
    ∃ q', noteBody r' evs u = .ok (q', u', o) ∧ Ahead Ls q q' := by
  induction evs with
  | nil =>
    intro r r' q u u' o _ _ h _ ht
    simp only [noteBody, Except.ok.injEq, Prod.mk.injEq] at h
    obtain ⟨rfl, rfl, rfl⟩ := h
    exact ⟨r', rfl, ht⟩
  | cons e es ih =>
    intro r r' q u u' o hd ho h hp ht
    have hde := hd e (List.mem_cons_self ..)
    have hds : ∀ x ∈ es, NoFoot x ∧ x ≠ .end .document := fun x hx => hd x (List.mem_cons_of_mem _ hx)
    by_cases hb : e = .blankline ∨ e = .escape
    · unfold noteBody at h ⊢
      rw [if_pos hb] at h ⊢
      exact ih hds ho h hp ht
    · obtain ⟨r1, o1, o2, h1, h2, rfl⟩ := noteBody_cons hb h
      rw [push_step _ _ hde.2] at h1
      have hs := step_foot h1
      have hm := footStep_main r.footnotes r.ignore e ho hde.1.1 []
      rw [← hs] at hm
      have hf2 := noteBody_foot es hds hm.1 h2
      obtain ⟨q1, g1, g2⟩ := step_ahead ht h1 (hf2.2.2.2.2.trans hp)
      have hlt : q1.listTightness = r1.listTightness := by rw [g2.eq]
      obtain ⟨q2, k1, k2⟩ := ih hds hm.1 h2 hp g2
      refine ⟨q2, ?_, k2⟩
      unfold noteBody
      rw [if_neg hb, push_step _ _ hde.2, g1]
      simp only [bind, Except.bind, hlt, k1]
      rfl

/-! ## The items -/

theorem Ahead.block {Ls : List Bytes} {r r' : Renderer} (h : Ahead Ls r r') (c : Int) :
    (r'.block c).2 = (r.block c).2 ∧ Ahead Ls (r.block c).1 (r'.block c).1 := by
  have he := h.eq
  have hb : r'.block c = ({ (r.block c).1 with footnotes := r'.footnotes }, (r.block c).2) := by
    conv => lhs; rw [he]
    exact block_swap _ _ _
  have hf := block_foot r c
  rw [hb]
  refine ⟨rfl, rfl, h.refs, ?_, ?_, ?_⟩ <;> simp only [hf]
  · exact h.pre
  · exact h.num
  · exact h.opn

theorem Ahead.beginNote {Ls : List Bytes} {r r' : Renderer} (h : Ahead Ls r r') (n : Nat) :
    (r'.beginNote n).2 = (r.beginNote n).2 ∧ Ahead Ls (r.beginNote n).1 (r'.beginNote n).1 := by
  have := h.block 0
  simp only [Renderer.beginNote]
  exact ⟨by rw [this.1], this.2⟩

theorem Ahead.endNote {Ls : List Bytes} {r r' : Renderer} (h : Ahead Ls r r') (n : Nat) (u : Bool) :
    (r'.endNote n u).2 = (r.endNote n u).2 ∧ Ahead Ls (r.endNote n u).1 (r'.endNote n u).1 := by
  have := h.block 0
  cases u with
  | true => simp only [Renderer.endNote, if_true]; exact ⟨by rw [this.1], this.2⟩
  | false =>
    have h2 := this.2.block 0
    simp only [Renderer.endNote, Bool.false_eq_true, if_false]
    exact ⟨by rw [this.1, h2.1], h2.2⟩

theorem Ahead.beginNotes {Ls : List Bytes} {r r' : Renderer} (h : Ahead Ls r r') :
    r'.beginNotes.2 = r.beginNotes.2 ∧ Ahead Ls r.beginNotes.1 r'.beginNotes.1 := by
  have h1 := h.block 0
  have h2 := h1.2.block 0
  have h3 := h2.2.block 0
  simp only [Renderer.beginNotes]
  exact ⟨by rw [h1.1, h2.1, h3.1], h3.2⟩

theorem Ahead.endNotes {Ls : List Bytes} {r r' : Renderer} (h : Ahead Ls r r') :
    r'.endNotes.2 = r.endNotes.2 ∧ Ahead Ls r.endNotes.1 r'.endNotes.1 := by
  have h1 := h.block 0
  have h2 := h1.2.block 0
  simp only [Renderer.endNotes]
  exact ⟨by rw [h1.1, h2.1], h2.2⟩

theorem Ahead.finalNewline {Ls : List Bytes} {r r' : Renderer} (h : Ahead Ls r r') : r'.finalNewline = r.finalNewline := by
  unfold Renderer.finalNewline
  have : r'.indent = r.indent := by rw [h.eq]
  rw [this]

theorem block_ignore (r : Renderer) (c : Int) : (r.block c).1.ignore = r.ignore := by
  obtain ⟨d, hd⟩ := block_fst r c; rw [hd]

/-- The renderer while it writes note number `n`. -/
def Renderer.atNote (r : Renderer) (n : Nat) : Renderer :=
  { r with footnotes := { r.footnotes with number := n } }

/-- The items of the endnotes after the first `n`, one for each list of events in `notes`, numbered
`n + 1`, `n + 2`, ...: `out` is what is written for them, from state `r` to state `r2`. -/
inductive NoteItems : Nat → Renderer → List (List Event) → Renderer → Out → Prop
  | nil (n : Nat) (r : Renderer) : NoteItems n r [] r []
  | cons {n : Nat} {r : Renderer} {evs : List Event} {notes : List (List Event)} {r1 : Renderer} {u : Bool}
      {body : Out} {r2 : Renderer} {out : Out}
      (h : noteBody ((r.atNote (n + 1)).beginNote (n + 1)).1 evs false = .ok (r1, u, body))
      (h' : NoteItems (n + 1) (r1.endNote (n + 1) u).1 notes r2 out) :
      NoteItems n r (evs :: notes) r2
        (((r.atNote (n + 1)).beginNote (n + 1)).2 ++ body ++ (r1.endNote (n + 1) u).2 ++ out)

theorem foldl_mapInsert (N m : List (Bytes × List Event)) (l : Bytes) :
    ((N.foldl (fun m p => mapInsert m p.1 p.2) m).find? (fun p => p.1 == l)).map (·.2) =
      match (N.filter (fun p => p.1 == l)).getLast? with
      | some p => some p.2
      | none => (m.find? (fun p => p.1 == l)).map (·.2) := by
  induction N generalizing m with
  | nil => rfl
  | cons p N ih =>
    simp only [List.foldl_cons, ih, List.filter_cons]
    by_cases hp : p.1 = l
    · have hpt : (p.1 == l) = true := by simp [hp]
      simp only [hpt, if_true]
      cases hx : (N.filter (fun p => p.1 == l)).getLast? with
      | none =>
        have : N.filter (fun p => p.1 == l) = [] := by simpa using hx
        rw [this]
        simp [mapInsert, hp]
      | some q =>
        have hne : N.filter (fun p => p.1 == l) ≠ [] := by intro h; rw [h] at hx; simp at hx
        have : (p :: N.filter (fun p => p.1 == l)).getLast? = some q := by
          rw [List.getLast?_cons, hx]; rfl
        rw [this]
    · have hpf : (p.1 == l) = false := by simp [hp]
      simp only [hpf, Bool.false_eq_true, if_false]
      cases hx : (N.filter (fun p => p.1 == l)).getLast? with
      | some q => rfl
      | none =>
        simp only [mapInsert, List.find?_cons, hpf]
        congr 1
        induction m with
        | nil => rfl
        | cons x m ihm =>
          by_cases hxl : x.1 = l
          · have h1 : (x.1 == l) = true := by simp [hxl]
            have h2 : (x.1 != p.1) = true := by simp [hxl, Ne.symm hp]
            simp [List.filter_cons, h2, h1]
          · have h1 : (x.1 == l) = false := by simp [hxl]
            by_cases h2 : (x.1 != p.1) = true
            · simp only [List.filter_cons, h2, if_true, List.find?_cons, h1]; exact ihm
            · simp only [List.filter_cons, h2, if_false, List.find?_cons, h1]; exact ihm

theorem noteOf_cases (N : List (Bytes × List Event)) (l : Bytes) :
    noteOf N l = [] ∨ ∃ p ∈ N, noteOf N l = p.2 := by
  unfold noteOf
  cases h : (N.filter (fun p => p.1 == l)).getLast? with
  | none => exact .inl rfl
  | some p =>
    right
    have := List.mem_of_getLast? h
    exact ⟨p, (List.mem_filter.1 this).1, rfl⟩

theorem noteOf_facts {N : List (Bytes × List Event)} (hN : ∀ p ∈ N, NoteNest p) (l : Bytes) :
    (∀ e ∈ noteOf N l, NoFoot e ∧ e ≠ .end .document) ∧ defFlag false (noteOf N l) = false := by
  rcases noteOf_cases N l with h | ⟨p, hp, h⟩
  · rw [h]; exact ⟨by simp, rfl⟩
  · rw [h]
    have := hN p hp
    exact ⟨fun e he => ⟨this.2 e he, nest_no_document _ _ _ this.1 e he⟩, this.flag⟩

theorem outside_id (evs : List Event) (h : ∀ e ∈ evs, NoFoot e) : outside 0 evs = evs := by
  induction evs with
  | nil => rfl
  | cons e es ih =>
    rw [outside_cons (h e (List.mem_cons_self ..)), if_pos rfl, ih (fun x hx => h x (List.mem_cons_of_mem _ hx))]

/-- The notes still to come are those put aside. -/
def LookOk (N : List (Bytes × List Event)) (f : Footnotes) : Prop :=
  ∀ l, l ∉ f.references.take f.number → ((f.events.find? (fun p => p.1 == l)).map (·.2)).getD [] = noteOf N l

theorem find_filter_ne (m : List (Bytes × List Event)) (l k : Bytes) (h : l ≠ k) :
    (m.filter (fun p => p.1 != k)).find? (fun p => p.1 == l) = m.find? (fun p => p.1 == l) := by
  induction m with
  | nil => rfl
  | cons x m ih =>
    by_cases hxl : x.1 = l
    · have h1 : (x.1 == l) = true := by simp [hxl]
      have h2 : (x.1 != k) = true := by simp [hxl, h]
      simp [List.filter_cons, h2, h1]
    · have h1 : (x.1 == l) = false := by simp [hxl]
      by_cases h2 : (x.1 != k) = true
      · simp only [List.filter_cons, h2, if_true, List.find?_cons, h1]; exact ih
      · simp only [List.filter_cons, h2, if_false, List.find?_cons, h1]; exact ih

theorem addRef_nodup (ls acc : List Bytes) (h : acc.Nodup) : (ls.foldl addRef acc).Nodup := by
  induction ls generalizing acc with
  | nil => exact h
  | cons l ls ih =>
    refine ih _ ?_
    unfold addRef
    split
    · exact h
    · rename_i hl
      rw [List.nodup_append]
      refine ⟨h, by simp, ?_⟩
      intro a ha b hb
      simp only [List.mem_singleton] at hb
      subst hb
      rintro rfl; exact hl ha

theorem take_prefix {a b : List Bytes} (h : a <+: b) {n : Nat} (hn : n ≤ a.length) : b.take n = a.take n := by
  obtain ⟨t, rfl⟩ := h
  rw [List.take_append_of_le_length hn]

theorem addRefs_distinct {Ls R : List Bytes} (h : Ls.Nodup) : distinct (Ls ++ R) = R.foldl addRef Ls := by
  rw [← foldl_addRef_nil, List.foldl_append, foldl_addRef_nil, distinct_id h]

/-- The order of the notes is determined. -/
theorem NotesFrom.unique {refs : Bytes → List Bytes} {n : Nat} {Ls a b : List Bytes} (h1 : NotesFrom refs n Ls a) (h2 : NotesFrom refs n Ls b) : a = b := by
  induction h1 with
  | done h =>
    cases h2 with
    | done _ => rfl
    | note hl _ => rw [List.getElem?_eq_none h] at hl; cases hl
  | note hl h ih =>
    cases h2 with
    | done h => rw [List.getElem?_eq_none h] at hl; cases hl
    | note hl' h' =>
      rw [hl] at hl'
      obtain rfl := Option.some.inj hl'
      exact ih h'

theorem NotesFrom.prefix {refs : Bytes → List Bytes} {n : Nat} {Ls a : List Bytes} (h : NotesFrom refs n Ls a) (hn : Ls.Nodup) : Ls <+: a ∧ a.Nodup := by
  induction h with
  | done _ => exact ⟨List.prefix_refl _, hn⟩
  | note hl h ih =>
    have h1 := ih (distinct_nodup _)
    refine ⟨List.IsPrefix.trans ?_ h1.1, h1.2⟩
    rw [addRefs_distinct hn]
    exact prefix_addRefs _ _

theorem notes_items {N : List (Bytes × List Event)} (hN : ∀ p ∈ N, NoteNest p) (fuel : Nat) :
    ∀ (r x : Renderer) (o : Out), Renderer.notes fuel r = .ok (x, o) → r.footnotes.open_ = [] → r.ignore = false →
    LookOk N r.footnotes → r.footnotes.number ≤ r.footnotes.references.length → r.footnotes.references.Nodup →
    r.footnotes.references <+: x.footnotes.references ∧
    NotesFrom (fun l => refsOf false (noteOf N l)) r.footnotes.number r.footnotes.references x.footnotes.references ∧
    ∀ r', Ahead x.footnotes.references r r' →
      ∃ x', NoteItems r.footnotes.number r' ((x.footnotes.references.drop r.footnotes.number).map (noteOf N)) x' o ∧
        Ahead x.footnotes.references x x' := by
  induction fuel with
  | zero => intro r x o h; simp [Renderer.notes] at h
  | succ fuel ih =>
    intro r x o h ho hi hlook hlen hnd
    unfold Renderer.notes at h
    cases hl : r.footnotes.references[r.footnotes.number]? with
    | none =>
      have hge : r.footnotes.references.length ≤ r.footnotes.number := by simpa using hl
      simp only [Footnotes.next, hl, Except.ok.injEq, Prod.mk.injEq] at h
      obtain ⟨rfl, rfl⟩ := h
      have hdrop : r.footnotes.references.drop r.footnotes.number = [] := List.drop_eq_nil_of_le hge
      refine ⟨List.prefix_refl _, .done hge, ?_⟩
      intro r' ht
      rw [hdrop]
      exact ⟨r', NoteItems.nil _ _, ht⟩
    | some label =>
      have hlt : r.footnotes.number < r.footnotes.references.length := by
        rw [List.getElem?_eq_some_iff] at hl; exact hl.1
      have hnot : label ∉ r.footnotes.references.take r.footnotes.number := by
        intro hmem
        rw [List.getElem?_eq_some_iff] at hl
        obtain ⟨h1, h2⟩ := hl
        rw [List.mem_take_iff_getElem] at hmem
        obtain ⟨j, hj, hj2⟩ := hmem
        have hjl : j < r.footnotes.references.length := by omega
        exact (List.pairwise_iff_getElem.1 hnd) j r.footnotes.number hjl h1 (by omega) (by rw [hj2, h2])
      have hlk := hlook label hnot
      simp only [Footnotes.next, hl] at h
      generalize hg : (Option.map (fun x => x.2) (List.find? (fun p => p.1 == label) r.footnotes.events)) = found at h hlk
      rw [hlk] at h
      clear hg
      generalize hf : (Footnotes.mk r.footnotes.open_ r.footnotes.references
        (r.footnotes.events.filter (fun p => p.1 != label)) (r.footnotes.number + 1)) = f at h
      obtain ⟨⟨a, ua, oa⟩, h1, h⟩ := bind_ok h
      obtain ⟨⟨y, oy⟩, h2, h⟩ := bind_ok h
      simp only [pure, Except.pure, Except.ok.injEq, Prod.mk.injEq] at h
      obtain ⟨rfl, rfl⟩ := h
      simp only at h2
      obtain ⟨hev, hflag⟩ := noteOf_facts hN label
      have hbody := noteBody_of_note fuel _ _ _ _ (fun e he => (hev e he).2) h1
      have hbf := beginNote_foot { r with footnotes := f } (r.footnotes.number + 1)
      simp only at hbf
      have hbi : ({ r with footnotes := f }.beginNote (r.footnotes.number + 1)).1.ignore = false := by
        simp only [Renderer.beginNote, block_ignore]; exact hi
      have hopb : ({ r with footnotes := f }.beginNote (r.footnotes.number + 1)).1.footnotes.open_ = [] := by
        rw [hbf, ← hf]; exact ho
      have hfoot := noteBody_foot _ hev hopb hbody
      obtain ⟨q1, q2, q3, q4, q5⟩ := hfoot
      rw [hbf] at q3 q4 q5
      have hrun := footRun (noteOf N label) f false
      rw [hbf, hbi] at q1
      have hfo : f.open_ = [] := by rw [← hf]; exact ho
      have hfr : f.references = r.footnotes.references := by rw [← hf]
      have hfn : f.number = r.footnotes.number + 1 := by rw [← hf]
      have hfe : f.events = r.footnotes.events.filter (fun p => p.1 != label) := by rw [← hf]
      rw [← q1, hfo, List.length_nil, outside_id _ (fun e he => (hev e he).1)] at hrun
      simp only at hrun
      have hai : a.ignore = false := by rw [hrun.2.2.2, hflag]
      have har : a.footnotes.references = (refsOf false (noteOf N label)).foldl addRef r.footnotes.references := by
        rw [hrun.2.1, hfr]
      have hef := endNote_foot a (r.footnotes.number + 1) ua
      have hei : (a.endNote (r.footnotes.number + 1) ua).1.ignore = false := by
        cases ua <;> simp [Renderer.endNote, block_ignore, hai]
      have hpre : r.footnotes.references <+: a.footnotes.references := by rw [← hfr]; exact q5
      have hlen2 := hpre.length_le
      have htake : a.footnotes.references.take (r.footnotes.number + 1) =
          r.footnotes.references.take (r.footnotes.number + 1) := take_prefix hpre (by omega)
      have hlook2 : LookOk N (a.endNote (r.footnotes.number + 1) ua).1.footnotes := by
        rw [hef]
        intro l hnl
        rw [q4, hfn, htake] at hnl
        have hne : l ≠ label := by
          rintro rfl
          apply hnl
          rw [List.getElem?_eq_some_iff] at hl
          obtain ⟨h1, h2⟩ := hl
          rw [List.mem_take_iff_getElem]
          exact ⟨r.footnotes.number, by omega, h2⟩
        rw [q3, hfe, find_filter_ne _ _ _ hne]
        refine hlook l (fun hm => hnl ?_)
        have := List.take_subset_take_left r.footnotes.references (Nat.le_succ r.footnotes.number)
        exact this hm
      obtain ⟨g1, g2, g3⟩ := ih (a.endNote (r.footnotes.number + 1) ua).1 y oy h2 (by rw [hef]; exact q2) hei hlook2
        (by rw [hef, q4, hfn]; omega) (by rw [hef, har]; exact addRef_nodup _ _ hnd)
      rw [hef] at g1 g2 g3
      rw [q4, hfn] at g2 g3
      have hdrop : y.footnotes.references.drop r.footnotes.number =
          label :: y.footnotes.references.drop (r.footnotes.number + 1) := by
        have hy : y.footnotes.references[r.footnotes.number]? = some label := by
          obtain ⟨t, ht⟩ := hpre.trans g1
          rw [← ht, List.getElem?_append_left hlt, hl]
        rw [List.getElem?_eq_some_iff] at hy
        obtain ⟨h1, h2⟩ := hy
        rw [List.drop_eq_getElem_cons h1, h2]
      refine ⟨hpre.trans g1, ?_, ?_⟩
      · refine .note hl ?_
        rw [addRefs_distinct hnd, ← har]
        exact g2
      · intro r' ht
        rw [hdrop, List.map_cons]
        have ht1 : Ahead y.footnotes.references { r with footnotes := f } (r'.atNote (r.footnotes.number + 1)) := by
          refine ⟨?_, ht.refs, ?_, ?_, ?_⟩
          · unfold Renderer.atNote; rw [ht.eq]
          · simp only [hfr]; exact ht.pre
          · simp only [Renderer.atNote, hfn]
          · simp only [Renderer.atNote, hfo]; rw [ht.opn, ho]
        have ht2 := ht1.beginNote (r.footnotes.number + 1)
        obtain ⟨a', k1, k2⟩ := noteBody_ahead _ hev hopb hbody g1 ht2.2
        have ht3 := k2.endNote (r.footnotes.number + 1) ua
        obtain ⟨x', m1, m2⟩ := g3 _ ht3.2
        refine ⟨x', ?_, m2⟩
        have := NoteItems.cons k1 m1
        rw [ht2.1, ht3.1] at this
        exact this

end Jotdown.Html
