import Verif.Proofs.HtmlNotes
/-! # Rendering a whole document -/
namespace Jotdown.Html
open Jotdown

theorem pushEvents_app (a b : List Event) : ∀ r : Renderer, r.pushEvents (a ++ b) =
    (r.pushEvents a >>= fun x => x.1.pushEvents b >>= fun y => pure (y.1, x.2 ++ y.2)) := by
  induction a with
  | nil =>
    intro r
    simp only [List.nil_append, Renderer.pushEvents, bind, Except.bind]
    cases r.pushEvents b with
    | error e => rfl
    | ok x => rfl
  | cons e a ih =>
    intro r
    simp only [List.cons_append, Renderer.pushEvents, bind, Except.bind]
    cases r.pushEvent e with
    | error p => rfl
    | ok x =>
      simp only [ih, bind, Except.bind]
      cases x.1.pushEvents a with
      | error p => rfl
      | ok y =>
        simp only [pure, Except.pure]
        cases y.1.pushEvents b with
        | error p => rfl
        | ok z => simp

/-- No footnote on the stack. -/
def NoNote (st : List Container) : Prop := ∀ c ∈ st, ∀ l, c ≠ .footnote l

/-- The notes being put aside, for a stack of containers: `base` is the stack outside all of them. -/
inductive Opens (P : Event → Prop) : List (Bytes × List Event) → List Container → List Container → Prop
  | base (st : List Container) (h : NoNote st) : Opens P [] st st
  | foot {op : List (Bytes × List Event)} {st0 base : List Container} (l : Bytes) (evs : List Event)
      (seg : List Container) (h : Opens P op st0 base) (hn : nest [.footnote l] evs = some (seg ++ [.footnote l]))
      (hs : NoNote seg) (he : ∀ e ∈ evs, NoFoot e ∧ P e) :
      Opens P ((l, evs) :: op) (seg ++ .footnote l :: st0) base

/-- The stack has the document at its bottom. -/
def Bottom (st : List Container) : Prop := ∃ seg, st = seg ++ [.document]

theorem Bottom.ne {st : List Container} (h : Bottom st) : st ≠ [] := by
  obtain ⟨seg, rfl⟩ := h; simp

theorem Bottom.nest1 {st st' : List Container} {e : Event} (h : Bottom st)
    (hne : nest1 st e = some st') : Bottom st' := by
  obtain ⟨seg, rfl⟩ := h
  cases e with
  | start c a =>
    simp only [Jotdown.nest1] at hne
    split at hne
    · simp at hne
    · split at hne
      · simp only [Option.some.injEq] at hne; exact ⟨c :: seg, by rw [← hne]; rfl⟩
      · simp at hne
  | «end» c =>
    cases seg with
    | nil =>
      simp only [List.nil_append, Jotdown.nest1] at hne
      split at hne
      · rename_i hc; exact absurd hc.1 hc.2
      · simp at hne
    | cons d seg =>
      simp only [List.cons_append, Jotdown.nest1] at hne
      split at hne
      · simp only [Option.some.injEq] at hne; exact ⟨seg, hne.symm⟩
      · simp at hne
  | thematicBreak a =>
    simp only [Jotdown.nest1] at hne; split at hne <;> simp at hne; exact ⟨seg, hne.symm⟩
  | _ => simp only [Jotdown.nest1, Option.some.injEq] at hne; exact ⟨seg, hne.symm⟩

/-- Relation between the stack of containers and the two renderers while the document goes on. -/
structure Inv (st base : List Container) (r r' : Renderer) (m : Mode) : Prop where
  opens : Opens SafeEvent r.footnotes.open_ st base
  rel : Rel base { r with footnotes := { r.footnotes with open_ := [] } } m
  twin : Twin r r'
  notes : NotesOk r.footnotes.events
  num : r.footnotes.number = 0
  bot : Bottom base

theorem nest_append (st : List Container) (a b : List Event) :
    nest st (a ++ b) = (nest st a).bind (fun st => nest st b) := by
  induction a generalizing st with
  | nil => rfl
  | cons e a ih =>
    simp only [List.cons_append, nest]
    split
    · rfl
    · exact ih _

/-- Inside a footnote only the part of the stack above it matters. -/
theorem nest1_above {seg st0 st' : List Container} {l : Bytes} {e : Event} (hn : NoFoot e) (hs : NoNote seg)
    (h : nest1 (seg ++ .footnote l :: st0) e = some st') :
    ∃ seg', st' = seg' ++ .footnote l :: st0 ∧ nest1 (seg ++ [.footnote l]) e = some (seg' ++ [.footnote l]) ∧
      NoNote seg' := by
  have hh : (seg ++ Container.footnote l :: st0).head? = (seg ++ [Container.footnote l]).head? := by
    cases seg <;> rfl
  cases e with
  | start c a =>
    simp only [nest1, hh] at h ⊢
    split at h
    · simp at h
    · rename_i hd
      split at h
      · rename_i hc
        simp only [Option.some.injEq] at h
        refine ⟨c :: seg, h.symm, by rw [if_neg hd, if_pos hc]; rfl, ?_⟩
        intro x hx l'
        rcases List.mem_cons.1 hx with rfl | hx
        · rintro rfl; exact hn.1 l' a rfl
        · exact hs x hx l'
      · simp at h
  | «end» c =>
    cases seg with
    | nil =>
      simp only [List.nil_append, nest1] at h
      split at h
      · rename_i hc; exact absurd (by rw [hc.1]) (hn.2 l)
      · simp at h
    | cons d seg =>
      simp only [List.cons_append, nest1] at h ⊢
      split at h
      · rename_i hc
        simp only [Option.some.injEq] at h
        exact ⟨seg, h.symm, by rw [if_pos hc], fun x hx => hs x (List.mem_cons_of_mem _ hx)⟩
      · simp at h
  | thematicBreak a =>
    simp only [nest1, hh] at h ⊢
    split at h
    · rename_i hc
      simp only [Option.some.injEq] at h
      exact ⟨seg, h.symm, by rw [if_pos hc], hs⟩
    · simp at h
  | _ =>
    simp only [nest1, Option.some.injEq] at h ⊢
    exact ⟨seg, h.symm, rfl, hs⟩

theorem opens_noNote {P : Event → Prop} {op : List (Bytes × List Event)} {st base : List Container} (h : Opens P op st base) :
    NoNote base := by
  induction h with
  | base st h => exact h
  | foot l evs seg h _ _ _ ih => exact ih

theorem eraseCache_cons (l : Bytes) (evs : List Event) (m : List (Bytes × List Event)) :
    eraseCache ((l, evs) :: m) = (l, evs.map eraseText) :: eraseCache m := rfl

theorem mapInsert_erase (m m' : List (Bytes × List Event)) (l : Bytes) (v v' : List Event)
    (h : eraseCache m' = eraseCache m) (hv : v'.map eraseText = v.map eraseText) :
    eraseCache (mapInsert m' l v') = eraseCache (mapInsert m l v) := by
  unfold mapInsert
  rw [eraseCache_cons, eraseCache_cons, hv, eraseCache_filter _ _ _ h]

theorem NoFoot.erase {e e' : Event} (h : eraseText e = eraseText e') (hn : NoFoot e) : NoFoot e' := by
  rcases eraseText_cases h with ⟨s, s', rfl, rfl⟩ | ⟨_, rfl⟩
  · exact ⟨by simp, by simp⟩
  · exact hn

/-- The twin also has a note open. -/
theorem twin_open {r r' : Renderer} (ht : Twin r r') {l : Bytes} {evs : List Event} {rest : List (Bytes × List Event)}
    (ho : r.footnotes.open_ = (l, evs) :: rest) :
    ∃ evs' rest', r'.footnotes.open_ = (l, evs') :: rest' ∧ evs'.map eraseText = evs.map eraseText ∧
      eraseCache rest' = eraseCache rest := by
  have := ht.opn
  rw [ho] at this
  cases hh : r'.footnotes.open_ with
  | nil => rw [hh] at this; simp [eraseCache] at this
  | cons p rest' =>
    obtain ⟨l', evs'⟩ := p
    rw [hh, eraseCache_cons, eraseCache_cons] at this
    simp only [List.cons.injEq, Prod.mk.injEq] at this
    obtain ⟨⟨rfl, h2⟩, h3⟩ := this
    exact ⟨evs', rest', rfl, h2, h3⟩

theorem push_step (r : Renderer) (e : Event) (h : e ≠ .end .document) : r.pushEvent e = r.step e := by
  unfold Renderer.pushEvent
  have : r.fuel = (r.fuel - 1) + 1 := by unfold Renderer.fuel; omega
  rw [this]; exact event_step _ _ _ h

theorem Inv.step {st st' base : List Container} {r r' : Renderer} {m : Mode} {e e' : Event}
    (h : Inv st base r r' m) (he : eraseText e = eraseText e') (hne : nest1 st e = some st') (hs : SafeEvent e) :
    ∃ q q' o o' base' m', r.pushEvent e = .ok (q, o) ∧ r'.pushEvent e' = .ok (q', o') ∧ Inv st' base' q q' m' ∧
      Run2 m (htmlStack (live base)) o o' m' (htmlStack (live base')) := by
  have hdoc := eraseText_ne_document he hne
  rw [push_step _ _ hdoc.1, push_step _ _ hdoc.2]
  obtain ⟨hop, hrel, htw, hno, hnum, hbne⟩ := h
  rcases filter_cases r e with ⟨l, a, rfl, hf⟩ | ⟨l, l', evs, rest, rfl, ho, hf⟩ | ⟨l', evs, rest, hn, ho, hf⟩ | ⟨ho, h1, _⟩
  · -- start of a footnote
    rcases eraseText_cases he with ⟨s, s', h0, _⟩ | ⟨_, rfl⟩
    · simp at h0
    have hst : st' = .footnote l :: st := by
      simp only [nest1] at hne
      split at hne
      · simp at hne
      · split at hne <;> simp at hne; exact hne.symm
    subst hst
    have hf' : r'.filter (.start (.footnote l) a) =
      some { r' with footnotes := { r'.footnotes with open_ := (l, []) :: r'.footnotes.open_ } } := rfl
    refine ⟨_, _, [], [], base, m, by unfold Renderer.step; rw [hf], by unfold Renderer.step; rw [hf'], ?_, Run2.nil _ _⟩
    refine ⟨?_, hrel, ?_, hno, hnum, hbne⟩
    · exact Opens.foot (seg := []) l [] hop rfl (by intro c hc; simp at hc) (by simp)
    · refine ⟨?_, htw.refs, htw.num, ?_, htw.evs⟩
      · rw [htw.eq]
      · simp only [eraseCache_cons, htw.opn]
  · -- end of a footnote
    rcases eraseText_cases he with ⟨s, s', h0, _⟩ | ⟨_, rfl⟩
    · simp at h0
    obtain ⟨evs', rest', ho', hev, hrest⟩ := twin_open htw ho
    have hf' : r'.filter (.end (.footnote l)) = some { r' with footnotes := { r'.footnotes with
          open_ := rest', events := mapInsert r'.footnotes.events l' evs' } } := by
      simp [Renderer.filter, ho']
    rw [ho] at hop
    generalize hopen : (l', evs) :: rest = op at hop
    cases hop with
    | base => simp at hopen
    | foot l2 evs2 seg hh hn2 hs2 he2 =>
      rename_i op2 st0
      simp only [List.cons.injEq, Prod.mk.injEq] at hopen
      obtain ⟨⟨rfl, rfl⟩, rfl⟩ := hopen
      have hseg : seg = [] := by
        cases seg with
        | nil => rfl
        | cons d seg =>
          simp only [List.cons_append, nest1] at hne
          split at hne
          · rename_i hc
            exact absurd hc.1.symm (hs2 d (List.mem_cons_self ..) l)
          · simp at hne
      subst hseg
      simp only [List.nil_append, nest1] at hne
      split at hne
      · rename_i hc
        simp only [Option.some.injEq] at hne
        subst hne
        refine ⟨_, _, [], [], base, m, by unfold Renderer.step; rw [hf], by unfold Renderer.step; rw [hf'], ?_, Run2.nil _ _⟩
        refine ⟨hh, ?_, ?_, ?_, hnum, hbne⟩
        · exact hrel.mono rfl rfl rfl rfl rfl rfl
        · refine ⟨?_, htw.refs, htw.num, ?_, ?_⟩
          · rw [htw.eq]
          · exact hrest
          · exact mapInsert_erase _ _ _ _ _ htw.evs hev
        · intro p hp
          rcases List.mem_cons.1 hp with rfl | hp
          · exact ⟨hn2, he2⟩
          · exact hno p (List.mem_filter.1 hp).1
      · simp at hne
  · -- an event of a footnote
    obtain ⟨evs', rest', ho', hev, hrest⟩ := twin_open htw ho
    have hn' := NoFoot.erase he hn
    have hf' : r'.filter e' = some { r' with footnotes := { r'.footnotes with open_ := (l', evs' ++ [e']) :: rest' } } := by
      rcases filter_cases r' e' with ⟨l, a, rfl, hf⟩ | ⟨l, l', evs, rest, rfl, ho2, hf⟩ | ⟨l2, evs2, rest2, _, ho2, hf2⟩ | ⟨ho2, h1, _⟩
      · exact absurd rfl (hn'.1 _ _)
      · exact absurd rfl (hn'.2 _)
      · rw [ho'] at ho2
        simp only [List.cons.injEq, Prod.mk.injEq] at ho2
        obtain ⟨⟨rfl, rfl⟩, rfl⟩ := ho2
        exact hf2
      · rw [ho'] at ho2; simp at ho2
    rw [ho] at hop
    generalize hopen : (l', evs) :: rest = op at hop
    cases hop with
    | base => simp at hopen
    | foot l2 evs2 seg hh hn2 hs2 he2 =>
      rename_i op2 st0
      simp only [List.cons.injEq, Prod.mk.injEq] at hopen
      obtain ⟨⟨rfl, rfl⟩, rfl⟩ := hopen
      obtain ⟨seg', rfl, h2, h3⟩ := nest1_above hn hs2 hne
      refine ⟨_, _, [], [], base, m, by unfold Renderer.step; rw [hf], by unfold Renderer.step; rw [hf'], ?_, Run2.nil _ _⟩
      refine ⟨?_, hrel, ?_, hno, hnum, hbne⟩
      · refine Opens.foot l' (evs ++ [e]) seg' hh ?_ h3 ?_
        · rw [nest_append, hn2]
          simp only [Option.bind, nest, h2]
        · intro x hx
          rcases List.mem_append.1 hx with hx | hx
          · exact he2 x hx
          · simp at hx; subst hx; exact ⟨hn, hs⟩
      · refine ⟨?_, htw.refs, htw.num, ?_, htw.evs⟩
        · rw [htw.eq]
        · simp only [eraseCache_cons, hrest, List.map_append, hev, List.map_cons, he]
  · -- outside footnotes
    rw [ho] at hop
    generalize hopen : ([] : List (Bytes × List Event)) = op at hop
    cases hop with
    | foot => simp at hopen
    | base _ hnb =>
      have hn : NoFoot e := by
        refine ⟨h1, ?_⟩
        rintro l rfl
        cases st with
        | nil => simp [nest1] at hne
        | cons d st =>
          simp only [nest1] at hne
          split at hne
          · rename_i hc; exact absurd hc.1.symm (hnb d (List.mem_cons_self ..) l)
          · simp at hne
      have hrel' : Rel st r m := hrel.mono ho rfl rfl rfl rfl rfl
      obtain ⟨q, q', o, o', m', g1, g2, g3, g4, g5, g6⟩ := step_twin hrel' htw he hn hne hs hbne.ne
      have hp : pending r e = [] := by
        unfold pending
        rw [if_neg]; rintro ⟨_, h2, _⟩
        simp [Footnotes.inEpilogue, hnum] at h2
      have hrun := g6 []
      rw [hp] at hrun
      simp only [List.append_nil, List.nil_append] at hrun
      have hno' : NoNote st' := by
        cases e with
        | start c a =>
          simp only [nest1] at hne
          split at hne
          · simp at hne
          · split at hne <;> simp at hne
            subst hne
            intro x hx l'
            rcases List.mem_cons.1 hx with rfl | hx
            · rintro rfl; exact hn.1 l' a rfl
            · exact hnb x hx l'
        | «end» c =>
          cases st with
          | nil => simp [nest1] at hne
          | cons d st =>
            simp only [nest1] at hne
            split at hne <;> simp at hne
            subst hne
            exact fun x hx => hnb x (List.mem_cons_of_mem _ hx)
        | thematicBreak a => simp only [nest1] at hne; split at hne <;> simp at hne; subst hne; exact hnb
        | _ => simp only [nest1, Option.some.injEq] at hne; subst hne; exact hnb
      refine ⟨q, q', o, o', st', m', g1, g2, ?_, hrun⟩
      have hqo : q.footnotes.open_ = [] := g4.opn
      refine ⟨by rw [hqo]; exact Opens.base _ hno', g4.mono rfl rfl rfl rfl rfl rfl, g3,
        by rw [g5.1]; exact hno, by rw [g5.2]; exact hnum, ?_⟩
      exact hbne.nest1 hne

theorem Inv.run (es : List Event) : ∀ (es' : List Event) (st st' base : List Container) (r r' : Renderer) (m : Mode),
    Inv st base r r' m → es.map eraseText = es'.map eraseText → nest st es = some st' → (∀ e ∈ es, SafeEvent e) →
    ∃ q q' o o' base' m', r.pushEvents es = .ok (q, o) ∧ r'.pushEvents es' = .ok (q', o') ∧ Inv st' base' q q' m' ∧
      Run2 m (htmlStack (live base)) o o' m' (htmlStack (live base')) := by
  induction es with
  | nil =>
    intro es' st st' base r r' m h he hne hs
    have : es' = [] := by simpa using he.symm
    subst this
    simp only [nest, Option.some.injEq] at hne
    subst hne
    exact ⟨r, r', [], [], base, m, rfl, rfl, h, Run2.nil _ _⟩
  | cons e es ih =>
    intro es' st st' base r r' m h he hne hs
    cases es' with
    | nil => simp at he
    | cons e' es' =>
      simp only [List.map_cons, List.cons.injEq] at he
      obtain ⟨st1, hn1, hn2⟩ := nest_cons hne
      obtain ⟨q, q', o, o', base1, m1, g1, g2, g3, g4⟩ := h.step he.1 hn1 (hs e (List.mem_cons_self ..))
      obtain ⟨x, x', p, p', base2, m2, k1, k2, k3, k4⟩ := ih es' st1 st' base1 q q' m1 g3 he.2 hn2
        (fun y hy => hs y (List.mem_cons_of_mem _ hy))
      refine ⟨x, x', o ++ p, o' ++ p', base2, m2, ?_, ?_, k3, g4.append k4⟩
      · simp only [Renderer.pushEvents, g1, k1, bind, Except.bind, pure, Except.pure]
      · simp only [Renderer.pushEvents, g2, k2, bind, Except.bind, pure, Except.pure]

theorem start_document (r : Renderer) (a : Attr.Attributes) (ho : r.footnotes.open_ = []) (hi : r.ignore = false)
    (h0 : r.imgAltText = 0) : r.pushEvent (.start .document a) = .ok (r, []) := by
  rw [push_step _ _ (by simp)]
  rw [step_core ho hi ⟨by simp, by simp⟩ (by simp) (by simp)]
  simp [Renderer.core, Renderer.start, Renderer.startBlock, isBlock, h0, Renderer.openTag]

theorem end_document (r : Renderer) (ho : r.footnotes.open_ = []) (hi : r.ignore = false)
    (h0 : r.imgAltText = 0) : r.pushEvent (.end .document) = Renderer.epilogue (r.fuel - 1) r := by
  unfold Renderer.pushEvent
  have : r.fuel = (r.fuel - 1) + 1 := by unfold Renderer.fuel; omega
  conv => lhs; rw [this]
  simp [Renderer.event, Renderer.filter, ho, hi, h0]

theorem inv_new {i : Option Indentation} (hi : SafeIndent i) :
    Inv [.document] [.document] (Renderer.new i) (Renderer.new i) .text := by
  refine ⟨?_, ?_, Twin.refl _, ?_, rfl, ⟨[], rfl⟩⟩
  · exact Opens.base _ (by intro c hc l; simp at hc; subst hc; simp)
  · refine ⟨rfl, hi, by simp [Renderer.new], rfl, rfl, rfl, rfl, rfl⟩
  · intro p hp; simp [Renderer.new] at hp

theorem opens_document {P : Event → Prop} {op : List (Bytes × List Event)} {st base : List Container} (h : Opens P op st base)
    (hst : NoNote st) : op = [] ∧ base = st := by
  cases h with
  | base => exact ⟨rfl, rfl⟩
  | foot l evs seg => exact absurd rfl (hst (.footnote l) (by simp) l)

theorem Both.good {α β : Type} {a : R α} {b : R β} {P : α → β → Prop} (h : Both a b P) (hn : a ≠ .error .fuel) :
    ∃ x y, a = .ok x ∧ b = .ok y ∧ P x y := by
  rcases h with ⟨h, _⟩ | h
  · exact absurd h hn
  · exact h

theorem notFuel_ne {α : Type} {a : R α} {P : α → Prop} (h : Sat NotFuel a P) : a ≠ .error .fuel := by
  intro h'; rw [h'] at h
  exact h rfl

/-- The cache of a renderer in the relation holds no footnote starts or ends. -/
theorem Inv.cache {st base : List Container} {r r' : Renderer} {m : Mode} (h : Inv st base r r' m)
    (ho : r.footnotes.open_ = []) : CacheOk r.footnotes := by
  refine ⟨by rw [ho]; simp, fun p hp e he => ((h.notes p hp).2 e he).1⟩

/-- Two documents that differ only in texts. -/
theorem document_both {es es' : List Event} {i : Option Indentation} (hi : SafeIndent i)
    (hd : DocumentEvents es) (he : es.map eraseText = es'.map eraseText) (hs : ∀ e ∈ es, SafeEvent e) :
    ∃ q q' o o', (Renderer.new i).pushEvents es = .ok (q, o) ∧ (Renderer.new i).pushEvents es' = .ok (q', o') ∧
      Run2 .text [] o o' .text [] := by
  obtain ⟨attrs, body, rfl, hb⟩ := hd
  -- the other stream
  have hes' : ∃ body', es' = .start .document attrs :: (body' ++ [.end .document]) ∧
      body.map eraseText = body'.map eraseText := by
    cases es' with
    | nil => simp at he
    | cons e1 es1 =>
      simp only [List.map_cons, List.cons.injEq, List.map_append] at he
      obtain ⟨h1, h2⟩ := he
      have h1' : e1 = .start .document attrs := by
        rcases eraseText_cases h1 with ⟨s, s', h0, _⟩ | ⟨_, h0⟩
        · simp at h0
        · exact h0
      have h3 := List.map_eq_append_iff.1 h2.symm
      obtain ⟨b1, b2, rfl, hb1, hb2⟩ := h3
      cases b2 with
      | nil => simp at hb2
      | cons e2 b2 =>
        simp only [List.map_cons, List.map_nil, List.cons.injEq] at hb2
        obtain ⟨h4, h5⟩ := hb2
        have : b2 = [] := by simpa using h5
        subst this
        have h4' : e2 = .end .document := by
          rcases eraseText_cases h4.symm with ⟨s, s', h0, _⟩ | ⟨_, h0⟩
          · simp at h0
          · exact h0
        exact ⟨b1, by rw [h1', h4'], hb1.symm⟩
  obtain ⟨body', rfl, hbody⟩ := hes'
  have hinv := inv_new hi
  obtain ⟨q, q', o, o', base, m, g1, g2, g3, g4⟩ := Inv.run body body' _ _ _ _ _ _ hinv hbody hb
    (fun e he => hs e (by simp [he]))
  obtain ⟨hop, rfl⟩ := opens_document g3.opens (by intro c hc l; simp at hc; subst hc; simp)
  have hm : m = .text := by
    have := g3.rel.mode
    simpa [ModeOk, live, images, dead, isDef, isImage] using this
  subst hm
  have hrel : Rel [.document] q .text := g3.rel.mono hop rfl rfl rfl rfl rfl
  have hig : q.ignore = false := hrel.ign
  have him : q.imgAltText = 0 := hrel.img
  have hop' := g3.twin.open_nil hop
  have hig' : q'.ignore = false := by rw [g3.twin.eq]; exact hig
  have him' : q'.imgAltText = 0 := by rw [g3.twin.eq]; exact him
  have hend := epilogue_both (q.fuel - 1) q q' hrel g3.twin g3.notes
  have hnf := notFuel_ne (pushEvent_notFuel q (.end .document) (g3.cache hop))
  rw [end_document q hop hig him] at hnf
  obtain ⟨x, y, hx, hy, hxy⟩ := hend.good hnf
  obtain ⟨x1, x2⟩ := x
  obtain ⟨y1, y2⟩ := y
  have e1 : q.pushEvent (.end .document) = .ok (x1, x2) := by rw [end_document q hop hig him, hx]
  have e2 : q'.pushEvent (.end .document) = .ok (y1, y2) := by
    rw [end_document q' hop' hig' him', g3.twin.fuel, hy]
  refine ⟨x1, y1, o ++ x2, o' ++ y2, ?_, ?_, ?_⟩
  · simp only [Renderer.pushEvents]
    rw [start_document _ _ rfl rfl rfl]
    simp only [bind, Except.bind, pushEvents_app, g1, Renderer.pushEvents, e1, pure, Except.pure]
    simp
  · simp only [Renderer.pushEvents]
    rw [start_document _ _ rfl rfl rfl]
    simp only [bind, Except.bind, pushEvents_app, g2, Renderer.pushEvents, e2, pure, Except.pure]
    simp
  · exact g4.append hxy

end Jotdown.Html
