import Verif.Proofs.HtmlReuse
import Verif.Props.HtmlTree
/-! # C19: reusing a renderer -/
namespace Jotdown.Html
open Jotdown Jotdown.Html.Reuse

/-- The events of a document with the given content. -/
def documentOf (attrs : Attr.Attributes) (ns : List Node) : List Event := .start .document attrs :: (nodeEvents ns ++ [.end .document])

/-- The outputs of several renderings, one after the other. -/
def outputs : List (R Bytes) → R Bytes
  | [] => .ok []
  | x :: xs => do
    let a ← x
    let b ← outputs xs
    pure (a ++ b)

theorem output_app (r : Renderer) (a b : List Event) : r.output (a ++ b) = (r.pushEvents a).bind (fun x => (x.1.output b).bind (fun y => .ok (x.2.flatten ++ y))) := by
  unfold Renderer.output
  rw [pushEvents_app]
  simp only [bind, Except.bind, pure, Except.pure]
  cases r.pushEvents a with
  | error e => rfl
  | ok x =>
    simp only
    cases x.1.pushEvents b with
    | error e => rfl
    | ok y => simp

/-- **C19**, for renderers that do not indent: after any number of documents without footnotes, each of which is any tree of containers,
the renderer gives for any events what a new renderer gives, and each of the documents is rendered as by a new renderer. (See `C19_reuse_fails`
for documents with footnotes, and `C19_indented_fails` for other renderers.) -/
theorem C19_reuse_partial (docs : List (Attr.Attributes × List Node)) (h : ∀ d ∈ docs, nodesCovered d.2 = true ∧ nodeRefs d.2 = [] ∧ nodeNotes d.2 = []) (es : List Event) :
    Renderer.minified.output ((docs.map (fun d => documentOf d.1 d.2)).flatten ++ es)
      = outputs (docs.map (fun d => Renderer.minified.output (documentOf d.1 d.2)) ++ [Renderer.minified.output es]) := by
  induction docs with
  | nil =>
    simp only [List.map_nil, List.flatten_nil, List.nil_append, outputs, bind, Except.bind, pure, Except.pure, List.append_nil]
    cases Renderer.minified.output es <;> rfl
  | cons d docs ih =>
    obtain ⟨h1, h2, h3⟩ := h d (by simp)
    obtain ⟨q, o, e1, hs⟩ := document_sim d.1 d.2 h1 h2 h3
    simp only [List.map_cons, List.flatten_cons, List.append_assoc, List.cons_append, outputs, output_app _ (documentOf d.1 d.2)]
    have e1' : Renderer.minified.pushEvents (documentOf d.1 d.2) = .ok (q, o) := e1
    have e2 : Renderer.minified.output (documentOf d.1 d.2) = .ok o.flatten := by
      unfold Renderer.output
      rw [e1']; rfl
    rw [e1', e2, ← ih (fun x hx => h x (by simp [hx]))]
    simp only [bind, Except.bind, pure, Except.pure, sim_output hs]

/-- The case of one document before: the renderer is as good as new. -/
theorem C19_reuse_once_partial (attrs : Attr.Attributes) (ns : List Node) (hn : nodesCovered ns = true) (hr : nodeRefs ns = []) (hd : nodeNotes ns = []) :
    ∃ q o, Renderer.minified.pushEvents (documentOf attrs ns) = .ok (q, o) ∧ ∀ es, q.output es = Renderer.minified.output es := by
  obtain ⟨q, o, e1, hs⟩ := document_sim attrs ns hn hr hd
  exact ⟨q, o, e1, sim_output hs⟩

/-- **C19** does not hold for other renderers: a blank line is written before the second document. -/
theorem C19_indented_fails :
    ∃ q o, Renderer.default.pushEvents (documentOf [] [.elem .paragraph [] [.leaf (.str (b! "a"))]]) = .ok (q, o) ∧
      o.flatten = b! "<p>a</p>\n" ∧
      Renderer.default.output (documentOf [] [.elem .paragraph [] [.leaf (.str (b! "b"))]]) = .ok (b! "<p>b</p>\n") ∧
      q.output (documentOf [] [.elem .paragraph [] [.leaf (.str (b! "b"))]]) = .ok (b! "\n<p>b</p>\n") := by
  refine ⟨_, _, rfl, by decide +kernel, by decide +kernel, by decide +kernel⟩

/- A concrete case: two documents and one with a footnote. -/
example : ∀ d ∈ ([([], sampleTree), ([], [.elem .paragraph [] [.leaf (.str (b! "a"))]])] : List (Attr.Attributes × List Node)),
    nodesCovered d.2 = true ∧ nodeRefs d.2 = [] ∧ nodeNotes d.2 = [] := by
  intro d hd
  simp only [List.mem_cons, List.not_mem_nil, or_false] at hd
  rcases hd with rfl | rfl
  · exact ⟨by decide +kernel, by decide +kernel, rfl⟩
  · exact ⟨by decide +kernel, by decide +kernel, rfl⟩

example : Renderer.minified.output ([documentOf [] [.elem .paragraph [] [.leaf (.str (b! "a"))]]].flatten ++ documentOf [] noteTree)
    = outputs [.ok (b! "<p>a</p>"), Renderer.minified.output (documentOf [] noteTree)] :=
  C19_reuse_partial [([], [.elem .paragraph [] [.leaf (.str (b! "a"))]])] (by
    intro d hd
    simp only [List.mem_cons, List.not_mem_nil, or_false] at hd
    subst hd
    exact ⟨by decide +kernel, by decide +kernel, rfl⟩) _

end Jotdown.Html
