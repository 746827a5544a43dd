import Verif.Proofs.HtmlStream
import Verif.Spec.Footnotes
/-! # Footnotes: what is put aside and in which order labels are referenced -/
namespace Jotdown.Html
open Jotdown

/-! ## Distinct labels -/

/-- `Footnotes.reference` on the list of labels. -/
def addRef (ls : List Bytes) (l : Bytes) : List Bytes := if l ∈ ls then ls else ls ++ [l]

theorem labelPos_none {l : Bytes} {ls : List Bytes} : labelPos l ls = none ↔ l ∉ ls := by
  induction ls with
  | nil => simp [labelPos]
  | cons x ls ih =>
    unfold labelPos
    by_cases h : x = l
    · simp [h]
    · simp [h, ih, Ne.symm h]

theorem reference_refs (f : Footnotes) (l : Bytes) : (f.reference l).2.references = addRef f.references l := by
  unfold Footnotes.reference addRef
  cases h : labelPos l f.references with
  | none => rw [if_neg (labelPos_none.1 h)]
  | some i =>
    have : l ∈ f.references := by
      apply Classical.byContradiction; intro hn; rw [labelPos_none.2 hn] at h; simp at h
    rw [if_pos this]

theorem foldl_addRef (ls acc : List Bytes) :
    ls.foldl addRef acc = acc ++ (distinct ls).filter (fun x => !acc.contains x) := by
  induction ls generalizing acc with
  | nil => simp [distinct]
  | cons l ls ih =>
    simp only [List.foldl_cons, ih, distinct, List.filter_cons, List.filter_filter]
    unfold addRef
    by_cases h : l ∈ acc
    · rw [if_pos h]
      simp only [List.contains_iff_mem.2 h]
      simp only [Bool.not_true, Bool.false_eq_true, if_false]
      congr 1
      apply List.filter_congr
      intro x _
      by_cases hx : x = l
      · subst hx; simp [h]
      · simp [hx]
    · rw [if_neg h]
      have hc : acc.contains l = false := by simpa using h
      simp only [hc, Bool.not_false, if_true, List.append_assoc, List.singleton_append]
      congr 2
      apply List.filter_congr
      intro x _
      simp only [List.contains_append, Bool.not_or]
      congr 1
      by_cases hx : x = l
      · subst hx; simp
      · simp [hx]

theorem foldl_addRef_nil (ls : List Bytes) : ls.foldl addRef [] = distinct ls := by
  rw [foldl_addRef]; simp

theorem distinct_nodup (ls : List Bytes) : (distinct ls).Nodup := by
  induction ls with
  | nil => exact List.nodup_nil
  | cons l ls ih =>
    refine List.nodup_cons.2 ⟨?_, ih.filter _⟩
    simp

theorem distinct_id {ls : List Bytes} (h : ls.Nodup) : distinct ls = ls := by
  induction ls with
  | nil => rfl
  | cons l ls ih =>
    rw [List.nodup_cons] at h
    simp only [distinct, ih h.2]
    congr 1
    rw [List.filter_eq_self]
    intro x hx
    have : x ≠ l := fun e => h.1 (e ▸ hx)
    simpa using this

theorem prefix_addRefs (R ls : List Bytes) : ls <+: R.foldl addRef ls := by
  rw [foldl_addRef]; exact List.prefix_append _ _

theorem prefix_addRef (ls : List Bytes) (l : Bytes) : ls <+: addRef ls l := by
  unfold addRef; split
  · exact List.prefix_refl _
  · exact List.prefix_append _ _

/-! ## The footnotes part of the state -/

/-- What an event does to the footnotes and to the flag for link definitions. -/
def footStep (x : Footnotes × Bool) (e : Event) : Footnotes × Bool :=
  match e with
  | .start (.footnote l) _ => ({ x.1 with open_ := (l, []) :: x.1.open_ }, x.2)
  | _ =>
    match x.1.open_ with
    | (l, evs) :: rest =>
      match e with
      | .end (.footnote _) => ({ x.1 with open_ := rest, events := mapInsert x.1.events l evs }, x.2)
      | _ => ({ x.1 with open_ := (l, evs ++ [e]) :: rest }, x.2)
    | [] =>
      match e with
      | .start (.linkDefinition _) _ => (x.1, true)
      | .end (.linkDefinition _) => (x.1, false)
      | .footnoteReference l => if x.2 then x else ((x.1.reference l).2, x.2)
      | _ => x

theorem step_foot {r q : Renderer} {e : Event} {o : Out} (h : r.step e = .ok (q, o)) :
    (q.footnotes, q.ignore) = footStep (r.footnotes, r.ignore) e := by
  unfold Renderer.step at h
  rcases filter_cases r e with ⟨l, a, rfl, hf⟩ | ⟨l, l', evs, rest, rfl, ho, hf⟩ | ⟨l', evs, rest, hn, ho, hf⟩ | ⟨ho, h1, hf⟩
  · rw [hf] at h
    simp only [Except.ok.injEq, Prod.mk.injEq] at h
    rw [← h.1]; rfl
  · rw [hf] at h
    simp only [Except.ok.injEq, Prod.mk.injEq] at h
    rw [← h.1]
    simp [footStep, ho]
  · rw [hf] at h
    simp only [Except.ok.injEq, Prod.mk.injEq] at h
    rw [← h.1]
    unfold footStep
    split
    · exact absurd rfl (hn.1 _ _)
    · rw [ho]
      simp only
      split
      · exact absurd rfl (hn.2 _)
      · rfl
  · rcases hf with ⟨l, a, rfl, hf⟩ | ⟨l, rfl, hf⟩ | ⟨h2, h3, hf⟩
    · rw [hf] at h
      simp only [Except.ok.injEq, Prod.mk.injEq] at h
      rw [← h.1]; simp [footStep, ho]
    · rw [hf] at h
      simp only [Except.ok.injEq, Prod.mk.injEq] at h
      rw [← h.1]; simp [footStep, ho]
    · rw [hf] at h
      cases hi : r.ignore with
      | true =>
        rw [hi] at h
        simp only [if_true, Except.ok.injEq, Prod.mk.injEq] at h
        rw [← h.1, hi]
        unfold footStep
        split
        · exact absurd rfl (h1 _ _)
        · rw [ho]
          simp only
          split
          · exact absurd rfl (h2 _ _)
          · exact absurd rfl (h3 _)
          · rfl
          · rfl
      | false =>
        rw [hi] at h
        simp only [Bool.false_eq_true, if_false] at h
        have hc := core_footnotes h
        rw [hc.1, hc.2.1, hi]
        unfold footStep
        split
        · exact absurd rfl (h1 _ _)
        · rw [ho]
          simp only
          split
          · exact absurd rfl (h2 _ _)
          · exact absurd rfl (h3 _)
          · rfl
          · rename_i hne
            cases e <;> first | rfl | exact absurd rfl (hne _)

/-- The flag for link definitions after events. -/
def defFlag (b : Bool) : List Event → Bool
  | [] => b
  | .start (.linkDefinition _) _ :: es => defFlag true es
  | .end (.linkDefinition _) :: es => defFlag false es
  | _ :: es => defFlag b es

/-- An event outside footnotes that is not filtered. -/
theorem footStep_main (f : Footnotes) (b : Bool) (e : Event) (ho : f.open_ = []) (h1 : ∀ l a, e ≠ .start (.footnote l) a)
    (es : List Event) :
    (footStep (f, b) e).1.open_ = [] ∧ (footStep (f, b) e).1.events = f.events ∧
    (footStep (f, b) e).1.number = f.number ∧
    refsOf b (e :: es) = refsOf b [e] ++ refsOf (footStep (f, b) e).2 es ∧
    (footStep (f, b) e).1.references = (refsOf b [e]).foldl addRef f.references ∧
    defFlag b (e :: es) = defFlag (footStep (f, b) e).2 es := by
  cases e with
  | start c a =>
    cases c with
    | footnote l => exact absurd rfl (h1 l a)
    | linkDefinition l => simp [footStep, ho, refsOf, defFlag]
    | _ => simp [footStep, ho, refsOf, defFlag]
  | «end» c => cases c <;> simp [footStep, ho, refsOf, defFlag]
  | footnoteReference l =>
    cases b with
    | true => simp [footStep, ho, refsOf, defFlag]
    | false =>
      have := reference_work f l
      simp only [footStep, ho, refsOf, defFlag, Bool.false_eq_true, if_false, this.2.1, this.2.2, reference_refs]
      refine ⟨trivial, trivial, ?_, by simp, by simp, trivial⟩
      unfold Footnotes.reference; split <;> rfl
  | _ => simp [footStep, ho, refsOf, defFlag]

/-- Putting aside all notes of a document. -/
theorem footRun (es : List Event) : ∀ (f : Footnotes) (b : Bool),
    (es.foldl footStep (f, b)).1.number = f.number ∧
    (es.foldl footStep (f, b)).1.references = (refsOf b (outside f.open_.length es)).foldl addRef f.references ∧
    (es.foldl footStep (f, b)).1.events = (notesOf f.open_ es).foldl (fun m p => mapInsert m p.1 p.2) f.events ∧
    (es.foldl footStep (f, b)).2 = defFlag b (outside f.open_.length es) := by
  induction es with
  | nil => intro f b; exact ⟨rfl, rfl, rfl, rfl⟩
  | cons e es ih =>
    intro f b
    by_cases h1 : ∃ l a, e = .start (.footnote l) a
    · obtain ⟨l, a, rfl⟩ := h1
      have := ih { f with open_ := (l, []) :: f.open_ } b
      simpa [footStep, outside, notesOf] using this
    · have h1' : ∀ l a, e ≠ .start (.footnote l) a := fun l a h => h1 ⟨l, a, h⟩
      cases ho : f.open_ with
      | nil =>
        have hm := footStep_main f b e ho h1' (outside 0 es)
        have := ih (footStep (f, b) e).1 (footStep (f, b) e).2
        simp only [List.foldl_cons]
        rw [show footStep (f, b) e = ((footStep (f, b) e).1, (footStep (f, b) e).2) from rfl]
        simp only [hm.1, hm.2.1, hm.2.2.1, hm.2.2.2.2.1, List.length_nil] at this
        by_cases h2 : ∃ l, e = .end (.footnote l)
        · obtain ⟨l, rfl⟩ := h2
          simpa [outside, notesOf, footStep, ho, refsOf] using this
        · have ho2 : outside 0 (e :: es) = e :: outside 0 es := by
            conv => lhs; unfold outside
            split
            · simp at *
            · rename_i h; simp only [List.cons.injEq] at h; exact absurd h.1 (h1' _ _)
            · rename_i h; simp only [List.cons.injEq] at h; exact absurd ⟨_, h.1⟩ h2
            · rename_i h; simp only [List.cons.injEq] at h; obtain ⟨rfl, rfl⟩ := h; rfl
          have hn2 : notesOf [] (e :: es) = notesOf [] es := by
            conv => lhs; unfold notesOf
            split
            · simp at *
            · rename_i h; simp only [List.cons.injEq] at h; exact absurd h.1 (h1' _ _)
            · rename_i h; simp only [List.cons.injEq] at h; exact absurd ⟨_, h.1⟩ h2
            · rename_i h; simp only [List.cons.injEq] at h; obtain ⟨rfl, rfl⟩ := h; rfl
          simp only [List.length_nil]
          rw [ho2, hn2, hm.2.2.2.1, hm.2.2.2.2.2, List.foldl_append]
          exact this
      | cons p rest =>
        obtain ⟨l, evs⟩ := p
        by_cases h2 : ∃ l, e = .end (.footnote l)
        · obtain ⟨l2, rfl⟩ := h2
          have := ih { f with open_ := rest, events := mapInsert f.events l evs } b
          simpa [footStep, ho, outside, notesOf] using this
        · have h2' : ∀ l, e ≠ .end (.footnote l) := fun l h => h2 ⟨l, h⟩
          have hs : footStep (f, b) e = ({ f with open_ := (l, evs ++ [e]) :: rest }, b) := by
            unfold footStep
            split
            · exact absurd rfl (h1' _ _)
            · simp only [ho]
          have := ih { f with open_ := (l, evs ++ [e]) :: rest } b
          have ho2 : outside (rest.length + 1) (e :: es) = outside (rest.length + 1) es := by
            conv => lhs; unfold outside
            split
            · simp at *
            · rename_i h; simp only [List.cons.injEq] at h; exact absurd h.1 (h1' _ _)
            · rename_i h; simp only [List.cons.injEq] at h; exact absurd h.1 (h2' _)
            · rename_i h; simp only [List.cons.injEq] at h; obtain ⟨rfl, rfl⟩ := h; rw [if_neg (by omega)]
          have hn2 : notesOf ((l, evs) :: rest) (e :: es) = notesOf ((l, evs ++ [e]) :: rest) es := by
            conv => lhs; unfold notesOf
            split
            · simp at *
            · rename_i h; simp only [List.cons.injEq] at h; exact absurd h.1 (h1' _ _)
            · rename_i h; simp only [List.cons.injEq] at h; exact absurd h.1 (h2' _)
            · rename_i h; simp only [List.cons.injEq] at h; obtain ⟨rfl, rfl⟩ := h; rfl
          simp only [List.foldl_cons, hs, List.length_cons]
          rw [ho2, hn2]
          exact this

/-! ## Well-nested notes -/

theorem Placed.nest1 {st st' : List Container} {e : Event} (h : Placed st) (hst : st ≠ []) (hne : nest1 st e = some st') :
    Placed st' := by
  cases e with
  | start c a =>
    simp only [Jotdown.nest1] at hne
    split at hne
    · simp at hne
    · split at hne
      · rename_i hc
        simp only [Option.some.injEq] at hne; subst hne
        exact placed_cons h hc hst
      · simp at hne
  | «end» c =>
    cases st with
    | nil => exact absurd rfl hst
    | cons d st =>
      simp only [Jotdown.nest1] at hne
      split at hne <;> simp at hne
      subst hne; exact h.tail
  | thematicBreak a => simp only [Jotdown.nest1] at hne; split at hne <;> simp at hne; subst hne; exact h
  | _ => simp only [Jotdown.nest1, Option.some.injEq] at hne; subst hne; exact h

theorem placed_head_dead {st : List Container} (h : Placed st) (hh : (st.head?.map holdsBlocks).getD false = true) :
    dead st = false := by
  cases hc : st.head? with
  | none => rw [hc] at hh; simp at hh
  | some c => rw [hc] at hh; exact all_dead (placed_all h c hc (by simpa using hh))

/-- The flag follows the stack. -/
theorem defFlag_nest1 {st st' : List Container} {e : Event} (h : Placed st)
    (hne : nest1 st e = some st') (es : List Event) : defFlag (dead st) (e :: es) = defFlag (dead st') es := by
  cases e with
  | start c a =>
    simp only [nest1] at hne
    split at hne
    · simp at hne
    · split at hne
      · rename_i hc
        simp only [Option.some.injEq] at hne; subst hne
        by_cases hd : isDef c = true
        · obtain ⟨l, rfl⟩ : ∃ l, c = .linkDefinition l := by
            cases c <;> first | exact ⟨_, rfl⟩ | simp [isDef] at hd
          rfl
        · have hd : isDef c = false := by simpa using hd
          have e1 : dead (c :: st) = dead st := by simp [dead, hd]
          rw [e1]
          cases c <;> first | rfl | simp [isDef] at hd
      · simp at hne
  | «end» c =>
    cases st with
    | nil => simp [nest1] at hne
    | cons d st =>
      simp only [nest1] at hne
      split at hne
      · rename_i hc
        simp only [Option.some.injEq] at hne; subst hne
        obtain ⟨rfl, _⟩ := hc
        by_cases hd : isDef c = true
        · obtain ⟨l, rfl⟩ : ∃ l, c = .linkDefinition l := by
            cases c <;> first | exact ⟨_, rfl⟩ | simp [isDef] at hd
          rw [all_dead (placed_block h rfl)]
          rfl
        · have hd : isDef c = false := by simpa using hd
          have e1 : dead (c :: st) = dead st := by simp [dead, hd]
          rw [e1]
          cases c <;> first | rfl | simp [isDef] at hd
      · simp at hne
  | thematicBreak a => simp only [nest1] at hne; split at hne <;> simp at hne; subst hne; rfl
  | _ => simp only [nest1, Option.some.injEq] at hne; subst hne; rfl

/-- Stacks with a bottom that the events do not close. -/
def On (c : Container) (st : List Container) : Prop := ∃ seg, st = seg ++ [c]

theorem defFlag_nest {c : Container} (evs : List Event) (hcl : ∀ e ∈ evs, e ≠ .end c) :
    ∀ (st st' : List Container), Placed st → On c st →
    nest st evs = some st' → defFlag (dead st) evs = dead st' := by
  induction evs with
  | nil => intro st st' _ _ h; simp only [nest, Option.some.injEq] at h; subst h; rfl
  | cons e evs ih =>
    intro st st' hp hon h
    obtain ⟨st1, h1, h2⟩ := nest_cons h
    have hst : st ≠ [] := by obtain ⟨seg, rfl⟩ := hon; simp
    rw [defFlag_nest1 hp h1]
    refine ih (fun x hx => hcl x (List.mem_cons_of_mem _ hx)) st1 st' (hp.nest1 hst h1) ?_ h2
    obtain ⟨seg, rfl⟩ := hon
    have hce := hcl e (List.mem_cons_self ..)
    cases e with
    | start d a =>
      simp only [nest1] at h1
      split at h1
      · simp at h1
      · split at h1
        · simp only [Option.some.injEq] at h1; exact ⟨d :: seg, by rw [← h1]; rfl⟩
        · simp at h1
    | «end» d =>
      cases seg with
      | nil =>
        simp only [List.nil_append, nest1] at h1
        split at h1
        · rename_i hc; rw [hc.1] at hce; exact absurd rfl hce
        · simp at h1
      | cons x seg =>
        simp only [List.cons_append, nest1] at h1
        split at h1
        · simp only [Option.some.injEq] at h1; exact ⟨seg, h1.symm⟩
        · simp at h1
    | thematicBreak a => simp only [nest1] at h1; split at h1 <;> simp at h1; exact ⟨seg, h1.symm⟩
    | _ => simp only [nest1, Option.some.injEq] at h1; exact ⟨seg, h1.symm⟩

/-- A well-nested note. -/
def NoteNest (p : Bytes × List Event) : Prop :=
  nest [.footnote p.1] p.2 = some [.footnote p.1] ∧ ∀ e ∈ p.2, NoFoot e

theorem NoteNest.flag {p : Bytes × List Event} (h : NoteNest p) : defFlag false p.2 = false :=
  defFlag_nest (c := .footnote p.1) p.2 (fun e he => (h.2 e he).2 _) [.footnote p.1] [.footnote p.1] rfl ⟨[], rfl⟩ h.1

theorem nest_no_document (evs : List Event) : ∀ (st st' : List Container), nest st evs = some st' →
    ∀ e ∈ evs, e ≠ .end .document := by
  induction evs with
  | nil => simp
  | cons e evs ih =>
    intro st st' h x hx
    obtain ⟨st1, h1, h2⟩ := nest_cons h
    rcases List.mem_cons.1 hx with rfl | hx
    · rintro rfl; rw [nest1_document] at h1; simp at h1
    · exact ih st1 st' h2 x hx

theorem outside_cons {n : Nat} {e : Event} {es : List Event} (h : NoFoot e) :
    outside n (e :: es) = if n = 0 then e :: outside n es else outside n es := by
  conv => lhs; unfold outside
  split
  · simp at *
  · rename_i h'; simp only [List.cons.injEq] at h'; exact absurd h'.1 (h.1 _ _)
  · rename_i h'; simp only [List.cons.injEq] at h'; exact absurd h'.1 (h.2 _)
  · rename_i h'; simp only [List.cons.injEq] at h'; obtain ⟨rfl, rfl⟩ := h'; rfl

theorem notesOf_cons {op : List (Bytes × List Event)} {e : Event} {es : List Event} (h : NoFoot e) :
    notesOf op (e :: es) = match op with
      | [] => notesOf [] es
      | (l, evs) :: rest => notesOf ((l, evs ++ [e]) :: rest) es := by
  conv => lhs; unfold notesOf
  split
  · simp at *
  · rename_i h'; simp only [List.cons.injEq] at h'; exact absurd h'.1 (h.1 _ _)
  · rename_i h'; simp only [List.cons.injEq] at h'; exact absurd h'.1 (h.2 _)
  · rename_i h'; simp only [List.cons.injEq] at h'; obtain ⟨rfl, rfl⟩ := h'; rfl

/-- The parts of a well-nested document are well nested. -/
theorem split_nest (es : List Event) : ∀ (op : List (Bytes × List Event)) (st st' base : List Container),
    Opens (fun _ => True) op st base → nest st es = some st' → NoNote st' →
    nest base (outside op.length es) = some st' ∧ (∀ e ∈ outside op.length es, NoFoot e) ∧
      ∀ p ∈ notesOf op es, NoteNest p := by
  induction es with
  | nil =>
    intro op st st' base h hne hst
    simp only [nest, Option.some.injEq] at hne
    subst hne
    obtain ⟨rfl, rfl⟩ := opens_document h hst
    exact ⟨rfl, by simp [outside], by simp [notesOf]⟩
  | cons e es ih =>
    intro op st st' base h hne hst
    obtain ⟨st1, h1, h2⟩ := nest_cons hne
    by_cases hf : ∃ l a, e = .start (.footnote l) a
    · obtain ⟨l, a, rfl⟩ := hf
      have hst1 : st1 = .footnote l :: st := by
        simp only [nest1] at h1
        split at h1
        · simp at h1
        · split at h1 <;> simp at h1; exact h1.symm
      subst hst1
      have := ih ((l, []) :: op) _ st' base
        (Opens.foot (seg := []) l [] h rfl (by intro c hc; simp at hc) (by simp)) h2 hst
      simpa [outside, notesOf] using this
    · have hf1 : ∀ l a, e ≠ .start (.footnote l) a := fun l a h => hf ⟨l, a, h⟩
      cases h with
      | base _ hnb =>
        have hn : NoFoot e := by
          refine ⟨hf1, ?_⟩
          rintro l rfl
          cases st with
          | nil => simp [nest1] at h1
          | cons d st =>
            simp only [nest1] at h1
            split at h1
            · rename_i hc; exact absurd hc.1.symm (hnb d (List.mem_cons_self ..) l)
            · simp at h1
        have hno' : NoNote st1 := by
          cases e with
          | start c a =>
            simp only [nest1] at h1
            split at h1
            · simp at h1
            · split at h1 <;> simp at h1
              subst h1
              intro x hx l'
              rcases List.mem_cons.1 hx with rfl | hx
              · rintro rfl; exact hn.1 l' a rfl
              · exact hnb x hx l'
          | «end» c =>
            cases st with
            | nil => simp [nest1] at h1
            | cons d st =>
              simp only [nest1] at h1
              split at h1 <;> simp at h1
              subst h1
              exact fun x hx => hnb x (List.mem_cons_of_mem _ hx)
          | thematicBreak a => simp only [nest1] at h1; split at h1 <;> simp at h1; subst h1; exact hnb
          | _ => simp only [nest1, Option.some.injEq] at h1; subst h1; exact hnb
        obtain ⟨g1, g2, g3⟩ := ih [] st1 st' st1 (Opens.base _ hno') h2 hst
        simp only [List.length_nil] at g1 g2 g3 ⊢
        rw [outside_cons hn, notesOf_cons hn]
        simp only [if_true]
        refine ⟨?_, ?_, g3⟩
        · simp only [nest, h1, g1]
        · intro x hx
          rcases List.mem_cons.1 hx with rfl | hx
          · exact hn
          · exact g2 x hx
      | foot l evs seg hh hn2 hs2 he2 =>
        rename_i op2 st0
        by_cases hf2 : ∃ l, e = .end (.footnote l)
        · obtain ⟨l2, rfl⟩ := hf2
          have hseg : seg = [] := by
            cases seg with
            | nil => rfl
            | cons d seg =>
              simp only [List.cons_append, nest1] at h1
              split at h1
              · rename_i hc
                exact absurd hc.1.symm (hs2 d (List.mem_cons_self ..) l2)
              · simp at h1
          subst hseg
          simp only [List.nil_append, nest1] at h1
          split at h1
          · simp only [Option.some.injEq] at h1
            subst h1
            obtain ⟨g1, g2, g3⟩ := ih op2 _ st' base hh h2 hst
            refine ⟨by simpa [outside] using g1, by simpa [outside] using g2, ?_⟩
            intro p hp
            simp only [notesOf, List.mem_cons] at hp
            rcases hp with rfl | hp
            · exact ⟨hn2, fun e he => (he2 e he).1⟩
            · exact g3 p hp
          · simp at h1
        · have hn : NoFoot e := ⟨hf1, fun l h => hf2 ⟨l, h⟩⟩
          obtain ⟨seg', rfl, k2, k3⟩ := nest1_above hn hs2 h1
          have hop : Opens (fun _ => True) ((l, evs ++ [e]) :: op2) (seg' ++ Container.footnote l :: st0) base := by
            refine Opens.foot l (evs ++ [e]) seg' hh ?_ k3 ?_
            · rw [nest_append, hn2]
              simp only [Option.bind, nest, k2]
            · intro x hx
              rcases List.mem_append.1 hx with hx | hx
              · exact he2 x hx
              · simp at hx; subst hx; exact ⟨hn, trivial⟩
          obtain ⟨g1, g2, g3⟩ := ih _ _ st' base hop h2 hst
          rw [outside_cons hn, notesOf_cons hn]
          simp only [List.length_cons] at g1 g2 ⊢
          rw [if_neg (by omega)]
          exact ⟨g1, g2, g3⟩

end Jotdown.Html
