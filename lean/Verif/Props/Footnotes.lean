import Verif.Proofs.HtmlMain
/-! # C14: numbering and rendering of footnotes -/
namespace Jotdown.Html
open Jotdown

/-- The renderer with the order of the notes known in advance. -/
def Renderer.knowing (r : Renderer) (Ls : List Bytes) : Renderer :=
  { r with footnotes := { r.footnotes with references := Ls } }

/-- **C14**, references: outside footnotes, link definitions and images, a reference is written with the
number of its label among the distinct labels referenced so far, including this one. -/
theorem C14_reference_number (i : Option Indentation) (es : List Event) (he : ∀ e ∈ es, e ≠ .end .document)
    (r : Renderer) (o : Out) (h : (Renderer.new i).pushEvents es = .ok (r, o))
    (ho : r.footnotes.open_ = []) (hi : r.ignore = false) (h0 : r.imgAltText = 0) (l : Bytes) :
    ∃ k q, (distinct (refsOf false (outside 0 es) ++ [l]))[k]? = some l ∧
      r.pushEvent (.footnoteReference l) = .ok (q,
        [b! "<a id=\"fnref", decimal (k + 1), b! "\" href=\"#fn", decimal (k + 1),
          b! "\" role=\"doc-noteref\"><sup>", decimal (k + 1), b! "</sup></a>"]) := by
  have hf := (push_foot es he h).1
  have hrun := footRun es (Renderer.new i).footnotes (Renderer.new i).ignore
  rw [← hf] at hrun
  have hr : r.footnotes.references = distinct (refsOf false (outside 0 es)) := by
    rw [← foldl_addRef_nil]; exact hrun.2.1
  have hd : distinct (refsOf false (outside 0 es) ++ [l]) = addRef r.footnotes.references l := by
    rw [hr, ← foldl_addRef_nil, ← foldl_addRef_nil, List.foldl_append]; rfl
  refine ⟨(r.footnotes.reference l).1 - 1, { (r.footnoteReference l).1 with firstLine := false }, ?_, ?_⟩
  · rw [hd, ← reference_refs]
    unfold Footnotes.reference
    cases hp : labelPos l r.footnotes.references with
    | none => simp
    | some j =>
      simp only [Nat.add_sub_cancel]
      clear hr hd hrun
      generalize r.footnotes.references = ls at hp
      induction ls generalizing j with
      | nil => simp [labelPos] at hp
      | cons x ls ih =>
        simp only [labelPos] at hp
        split at hp
        · rename_i hx; simp at hp; subst hp; simp [hx]
        · cases h1 : labelPos l ls with
          | none => rw [h1] at hp; simp at hp
          | some m => rw [h1] at hp; simp at hp; subst hp; simpa using ih m h1
  · have hk : (r.footnotes.reference l).1 - 1 + 1 = (r.footnotes.reference l).1 := by
      have : 0 < (r.footnotes.reference l).1 := by unfold Footnotes.reference; split <;> simp
      omega
    rw [push_step _ _ (by simp), step_core ho hi ⟨by simp, by simp⟩ (by simp) (by simp), hk]
    simp [Renderer.core, Renderer.footnoteReference, h0]

/-- **C14**, notes: for every document that renders, the notes have an order `Ls`: the distinct labels
in order of first reference, where references in notes come after those outside, note by note. All
references are numbered by their position in `Ls`: the output is that of a renderer that knows `Ls`
in advance. The notes are written in that order, numbered from 1, one item for each label, whose body
is the last footnote with the label. If there are no references there is no list of notes. -/
theorem C14_footnotes (i : Option Indentation) (attrs : Attr.Attributes) (body : List Event)
    (hd : nest [.document] body = some [.document]) (q : Renderer) (o : Out)
    (h : (Renderer.new i).pushEvents (.start .document attrs :: (body ++ [.end .document])) = .ok (q, o)) :
    ∃ Ls, NoteOrder body Ls ∧ Ls.Nodup ∧
      ∃ r1 o1, ((Renderer.new i).knowing Ls).pushEvents (.start .document attrs :: body) = .ok (r1, o1) ∧
        r1.footnotes.references = Ls ∧
        if Ls = [] then o = o1 ++ r1.finalNewline
        else ∃ r2 items, NoteItems 0 r1.beginNotes.1 (Ls.map (noteOf (notesOf [] body))) r2 items ∧
          o = o1 ++ (r1.beginNotes.2 ++ items ++ r2.endNotes.2 ++ r2.endNotes.1.finalNewline) := by
  -- the main part
  obtain ⟨r0, o0, o01, h0, h1, rfl⟩ := push_cons h
  rw [start_document _ _ rfl rfl rfl] at h0
  simp only [Except.ok.injEq, Prod.mk.injEq] at h0
  obtain ⟨rfl, rfl⟩ := h0
  rw [pushEvents_app] at h1
  obtain ⟨⟨r, om⟩, hm, h1⟩ := bind_ok h1
  obtain ⟨⟨r3, oe⟩, hend, h1⟩ := bind_ok h1
  simp only [pure, Except.pure, Except.ok.injEq, Prod.mk.injEq] at h1
  obtain ⟨rfl, rfl⟩ := h1
  simp only at hend
  obtain ⟨r4, o4, o5, hend', h6, rfl⟩ := push_cons hend
  simp only [Renderer.pushEvents, Except.ok.injEq, Prod.mk.injEq] at h6
  obtain ⟨rfl, rfl⟩ := h6
  have hnd := nest_no_document body _ _ hd
  have hf := (push_foot body hnd hm).1
  obtain ⟨s1, s2, s3⟩ := split_nest body [] _ _ _ (Opens.base (P := fun _ => True) [.document]
    (by intro c hc l; simp at hc; subst hc; simp)) hd (by intro c hc l; simp at hc; subst hc; simp)
  have hrun := footRun body (Renderer.new i).footnotes false
  have hni : (Renderer.new i).ignore = false := rfl
  rw [hni] at hf
  rw [← hf] at hrun
  simp only [Renderer.new, List.length_nil, foldl_addRef_nil] at hrun
  simp only [List.length_nil] at s1 s2
  obtain ⟨hnum, hrefs, hevs, hign⟩ := hrun
  obtain ⟨hop, hig, him⟩ := main_end hd hm
  rw [end_document r hop hig him] at hend'
  have hfuel : r.fuel - 1 = (r.fuel - 2) + 1 := by unfold Renderer.fuel; omega
  rw [hfuel] at hend'
  unfold Renderer.epilogue at hend'
  -- the renderer that knows the order
  have hknow : ∀ Ls, r.footnotes.references <+: Ls →
      ∃ r1, ((Renderer.new i).knowing Ls).pushEvents (.start .document attrs :: body) = .ok (r1, om) ∧ Ahead Ls r r1 := by
    intro Ls hpre
    have ha : Ahead Ls (Renderer.new i) ((Renderer.new i).knowing Ls) :=
      ⟨rfl, rfl, List.nil_prefix, rfl, rfl⟩
    obtain ⟨r1, k1, k2⟩ := push_ahead body hnd hm hpre ha
    refine ⟨r1, ?_, k2⟩
    simp only [Renderer.pushEvents]
    rw [start_document _ _ rfl rfl rfl]
    simp only [bind, Except.bind, k1, pure, Except.pure, List.nil_append]
  by_cases hemp : r.footnotes.references = []
  · rw [hemp] at hend'
    simp only [List.isEmpty_nil, if_true, Except.ok.injEq, Prod.mk.injEq] at hend'
    obtain ⟨rfl, rfl⟩ := hend'
    obtain ⟨r1, k1, k2⟩ := hknow [] (by rw [hemp]; exact List.prefix_refl _)
    refine ⟨[], ?_, List.nodup_nil, r1, om, k1, k2.refs, ?_⟩
    · unfold NoteOrder
      rw [← hrefs, hemp]
      exact .done (Nat.le_refl _)
    · simp [k2.finalNewline]
  · have hne : r.footnotes.references.isEmpty = false := by simpa using hemp
    rw [hne] at hend'
    simp only [Bool.false_eq_true, if_false] at hend'
    obtain ⟨⟨x, ox⟩, hx, hend'⟩ := bind_ok hend'
    simp only [pure, Except.pure, Except.ok.injEq, Prod.mk.injEq] at hend'
    obtain ⟨rfl, rfl⟩ := hend'
    have hbf : r.beginNotes.1.footnotes = r.footnotes := by
      obtain ⟨d1, e1⟩ := block_fst r 0
      obtain ⟨d2, e2⟩ := block_fst (r.block 0).1 0
      obtain ⟨d3, e3⟩ := block_fst ((r.block 0).1.block 0).1 0
      simp only [Renderer.beginNotes]
      rw [e3]; simp only; rw [e2]; simp only; rw [e1]
    have hbi : r.beginNotes.1.ignore = false := by
      simp only [Renderer.beginNotes, block_ignore]; exact hig
    have hn0 : r.footnotes.number = 0 := hnum
    obtain ⟨g1, g2, g3⟩ := notes_items (N := notesOf [] body) s3 _ _ _ _ hx (by rw [hbf]; exact hop) hbi
      (by
        intro l _
        rw [hbf, hevs, foldl_mapInsert]
        unfold noteOf
        cases (List.filter (fun p => p.1 == l) (notesOf [] body)).getLast? <;> rfl)
      (by rw [hbf, hn0]; omega) (by rw [hbf, hrefs]; exact distinct_nodup _)
    rw [hbf] at g1 g2 g3
    rw [hn0] at g2 g3
    simp only [List.drop_zero] at g2 g3
    have horder : NoteOrder body x.footnotes.references := by
      unfold NoteOrder
      rw [← hrefs]
      exact g2
    obtain ⟨r1, k1, k2⟩ := hknow _ g1
    obtain ⟨b1, b2⟩ := k2.beginNotes
    obtain ⟨x', m1, m2⟩ := g3 _ b2
    refine ⟨x.footnotes.references, horder, ?_, r1, om, k1, k2.refs, ?_⟩
    · exact (NotesFrom.prefix horder (distinct_nodup _)).2
    · have hne2 : x.footnotes.references ≠ [] := by
        intro h; rw [h] at g1; exact hemp (List.prefix_nil.1 g1)
      rw [if_neg hne2]
      obtain ⟨c1, c2⟩ := m2.endNotes
      refine ⟨x', ox, m1, ?_⟩
      rw [b1, c1, c2.finalNewline]
      simp

/- A concrete case: `b` is referenced first, its note refers to `c`, which has no note; a second note
for `b` replaces the first. -/
def notesExample : List Event :=
  [.start .paragraph [], .footnoteReference (b! "b"), .footnoteReference (b! "a"), .footnoteReference (b! "b"), .end .paragraph,
   .start (.footnote (b! "a")) [], .start .paragraph [], .str (b! "A"), .end .paragraph, .end (.footnote (b! "a")),
   .start (.footnote (b! "b")) [], .str (b! "old"), .end (.footnote (b! "b")),
   .start (.footnote (b! "b")) [], .start .paragraph [], .footnoteReference (b! "c"), .footnoteReference (b! "a"), .end .paragraph,
   .end (.footnote (b! "b"))]

example : nest [.document] notesExample = some [.document] := by decide
example : NoteOrder notesExample [b! "b", b! "a", b! "c"] :=
  .note (l := b! "b") (by decide) (.note (l := b! "a") (by decide) (.note (l := b! "c") (by decide) (.done (by decide))))
/- A note that only refers to itself is not in the list. -/
example : ¬ NoteOrder [.start (.footnote (b! "a")) [], .footnoteReference (b! "a"), .end (.footnote (b! "a"))] [b! "a"] := by
  rintro (_ | ⟨hl, _⟩) <;> cases hl
example : (Renderer.minified.output (.start .document [] :: (notesExample ++ [.end .document]))) =
    .ok (b! "<p><a id=\"fnref1\" href=\"#fn1\" role=\"doc-noteref\"><sup>1</sup></a><a id=\"fnref2\" href=\"#fn2\" role=\"doc-noteref\"><sup>2</sup></a><a id=\"fnref1\" href=\"#fn1\" role=\"doc-noteref\"><sup>1</sup></a></p><section role=\"doc-endnotes\"><hr><ol><li id=\"fn1\"><p><a id=\"fnref3\" href=\"#fn3\" role=\"doc-noteref\"><sup>3</sup></a><a id=\"fnref2\" href=\"#fn2\" role=\"doc-noteref\"><sup>2</sup></a><a href=\"#fnref1\" role=\"doc-backlink\">↩︎</a></p></li><li id=\"fn2\"><p>A<a href=\"#fnref2\" role=\"doc-backlink\">↩︎</a></p></li><li id=\"fn3\"><p><a href=\"#fnref3\" role=\"doc-backlink\">↩︎</a></p></li></ol></section>") := by
  decide +kernel

end Jotdown.Html
