import Verif.Proofs.HtmlEnd
/-! # C51: the HTML of a document -/
namespace Jotdown.Html
open Jotdown

/-- **C51.** Rendering a tree of containers (without a class attribute on a task list or on math, see `C51_class_fails`) gives exactly the HTML the tree has
according to the specification: elements, attributes, text and layout, references to footnotes and the notes at the end. The labels of the notes
and their order are determined by the tree. -/
theorem C51_html_partial (i : Option Indentation) (attrs : Attr.Attributes) (ns : List Node) (hn : nodesCovered ns = true) :
    ∃ Ls, TreeNotes ns Ls ∧ (∀ Ls', TreeNotes ns Ls' → Ls' = Ls) ∧
      (Renderer.new i).output (.start .document attrs :: (nodeEvents ns ++ [.end .document])) = .ok (documentHtml i Ls ns) := by
  obtain ⟨Ls, h1, h2⟩ := document_ok i attrs ns hn
  exact ⟨Ls, h1, fun Ls' h => h.unique h1, h2⟩

/-- A document without references has no notes. -/
theorem treeNotes_nil {ns : List Node} {Ls : List Bytes} (h : TreeNotes ns Ls) (hr : nodeRefs ns = []) : Ls = [] := by
  unfold TreeNotes at h
  rw [hr] at h
  exact h.unique (.done (by simp [distinct]))

/-- A document with a list, an image, a table, a definition and raw content. -/
def sampleTree : List Node :=
  [.elem (.linkDefinition (b! "l")) [] [.leaf (.str (b! "url"))],
   .elem (.section (b! "a")) [] [
    .elem (.heading 2 true (b! "a")) [] [.leaf (.str (b! "a<b"))],
    .elem (.list (.ordered .romanLower .period 3) true) [] [
      .elem .listItem [] [.elem .paragraph [] [.leaf (.str (b! "x")), .leaf .softbreak, .leaf .ellipsis]],
      .elem .listItem [] [.elem (.list (.task .dash) false) [] [.elem (.taskListItem true) [] [.elem .paragraph [] [.leaf (.str (b! "y"))]]]]],
    .elem .table [] [.elem (.tableRow true) [] [.elem (.tableCell .center true) [] [.leaf (.str (b! "c"))]]],
    .elem (.div (b! "warn")) [(.cls, b! "k")] [
      .elem .paragraph [] [.elem (.image (b! "u\"v") (.inline)) [] [.elem .strong [] [.leaf (.str (b! "al\"t"))]],
        .elem (.link (b! "m@x") .email) [] [.leaf (.str (b! "m@x"))],
        .elem (.math false) [] [.leaf (.str (b! "x<1"))]],
      .elem (.rawBlock (b! "html")) [] [.leaf (.str (b! "<b>"))],
      .leaf (.thematicBreak []),
      .elem (.codeBlock (b! "c")) [] [.leaf (.str (b! "if (a && b)\n"))]]]]

example : nodesCovered sampleTree = true := by decide +kernel

/-- The HTML of the sample. -/
example : documentHtml (some ⟨b! " ", 0⟩) [] sampleTree = b! "<section id=\"a\">\n <h2>a&lt;b</h2>\n <ol start=\"3\" type=\"i\">\n  <li>\n   x\n   …\n  </li>\n  <li>\n   <ul class=\"task-list\">\n    <li>\n     <input disabled=\"\" type=\"checkbox\" checked=\"\"/>\n     <p>y</p>\n    </li>\n   </ul>\n  </li>\n </ol>\n <table>\n  <tr>\n   <th style=\"text-align: center;\">c</th>\n  </tr>\n </table>\n <div class=\"k warn\">\n  <p><img alt=\"al&quot;t\" src=\"u&quot;v\"><a href=\"mailto:m@x\">m@x</a><span class=\"math inline\">\\(x&lt;1\\)</span></p>\n  <b>\n  <hr>\n  <pre><code class=\"language-c\">if (a &amp;&amp; b)\n</code></pre>\n </div>\n</section>\n" := by decide +kernel

/-- Two notes: the second is referenced only in the first, which refers to itself too; one that is not referenced; one label without a note. -/
def noteTree : List Node :=
  [.elem .paragraph [] [.leaf (.str (b! "x")), .leaf (.footnoteReference (b! "a")), .leaf (.footnoteReference (b! "z"))],
   .elem (.footnote (b! "b")) [] [.elem .blockquote [] [.elem .paragraph [] [.leaf (.str (b! "q"))]]],
   .elem (.footnote (b! "a")) [] [.elem .paragraph [] [.leaf (.str (b! "y")), .leaf (.footnoteReference (b! "a")), .leaf (.footnoteReference (b! "b"))], .leaf .blankline],
   .elem (.footnote (b! "c")) [] [.elem .paragraph [] [.leaf (.footnoteReference (b! "d"))]]]

example : nodesCovered noteTree = true := by decide +kernel

example : TreeNotes noteTree [b! "a", b! "z", b! "b"] := by
  have e : ∀ {n : Nat} {Ls Ls' X : List Bytes} (l : Bytes), Ls[n]? = some l → distinct (Ls ++ nodeRefs (noteContent (nodeNotes noteTree) l)) = X →
      NotesFrom (fun l => nodeRefs (noteContent (nodeNotes noteTree) l)) (n + 1) X Ls' → NotesFrom (fun l => nodeRefs (noteContent (nodeNotes noteTree) l)) n Ls Ls' :=
    fun l h1 h2 h3 => .note h1 (h2 ▸ h3)
  have d : distinct (nodeRefs noteTree) = [b! "a", b! "z"] := by decide
  unfold TreeNotes
  rw [d]
  exact e (X := [b! "a", b! "z", b! "b"]) (b! "a") rfl (by decide) (e (X := [b! "a", b! "z", b! "b"]) (b! "z") rfl (by decide) (e (X := [b! "a", b! "z", b! "b"]) (b! "b") rfl (by decide) (.done (by decide))))

/-- The HTML of the sample with notes. -/
example : documentHtml (some ⟨[], 0⟩) [b! "a", b! "z", b! "b"] noteTree = b! "<p>x<a id=\"fnref1\" href=\"#fn1\" role=\"doc-noteref\"><sup>1</sup></a><a id=\"fnref2\" href=\"#fn2\" role=\"doc-noteref\"><sup>2</sup></a></p>\n<section role=\"doc-endnotes\">\n<hr>\n<ol>\n<li id=\"fn1\">\n<p>y<a id=\"fnref1\" href=\"#fn1\" role=\"doc-noteref\"><sup>1</sup></a><a id=\"fnref3\" href=\"#fn3\" role=\"doc-noteref\"><sup>3</sup></a><a href=\"#fnref1\" role=\"doc-backlink\">\u21A9\uFE0E</a></p>\n</li>\n<li id=\"fn2\">\n<p><a href=\"#fnref2\" role=\"doc-backlink\">\u21A9\uFE0E</a></p>\n</li>\n<li id=\"fn3\">\n<blockquote>\n<p>q</p>\n</blockquote>\n<p><a href=\"#fnref3\" role=\"doc-backlink\">\u21A9\uFE0E</a></p>\n</li>\n</ol>\n</section>\n" := by decide +kernel

/-- The HTML meant for a task list with a class: both classes. -/
def classTree : List Node := [.elem (.list (.task .dash) true) [(.cls, b! "x")] []]

/-- **C51** does not hold for a task list with a class (nor for math): the class given and `task-list` are run together. -/
theorem C51_class_fails :
    Renderer.minified.output (.start .document [] :: (nodeEvents classTree ++ [.end .document])) = .ok (b! "<ul class=\"xtask-list\"></ul>")
    ∧ documentHtml none [] classTree = b! "<ul class=\"x task-list\"></ul>" := by
  decide +kernel

end Jotdown.Html
